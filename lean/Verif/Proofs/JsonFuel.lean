import Verif.Proofs.Json
/-
The fuel of the JSON reader never runs out.
-/
namespace Tokengeex
namespace Json
variable {F : Type}

theorem skip_length (s : Str) : (skip s).length ≤ s.length := by
  unfold skip
  exact List.IsSuffix.length_le (List.dropWhile_suffix _)

theorem readDigits_length : ∀ s : Str, (readDigits s).1.length + (readDigits s).2.length = s.length
  | [] => rfl
  | c :: rest => by
    have ih := readDigits_length rest
    unfold readDigits
    cases digitOf c with
    | none => simp
    | some d => simp only [List.length_cons]; omega

theorem readFrac_length {s : Str} {r : Option (List Nat) × Str} (h : readFrac s = some r) : r.2.length ≤ s.length := by
  unfold readFrac at h
  cases s with
  | nil => simp only [Option.some.injEq] at h; subst h; simp
  | cons c rest =>
    have := readDigits_length rest
    simp only at h
    by_cases h1 : c = '.'
    · rw [if_pos h1] at h
      by_cases h2 : (readDigits rest).1 = []
      · rw [if_pos h2] at h; cases h
      · rw [if_neg h2] at h; injection h with h; subst h; simp only [List.length_cons]; omega
    · rw [if_neg h1] at h; injection h with h; subst h; simp

theorem expSign_length (s : Str) : (expSign s).2.length ≤ s.length := by
  unfold expSign
  cases s with
  | nil => simp
  | cons c rest =>
    simp only
    by_cases h1 : c = '+'
    · rw [if_pos h1]; simp
    · rw [if_neg h1]
      by_cases h2 : c = '-'
      · rw [if_pos h2]; simp
      · rw [if_neg h2]; simp

theorem numSign_length (s : Str) : (numSign s).2.length ≤ s.length := by
  unfold numSign
  cases s with
  | nil => simp
  | cons c rest =>
    simp only
    by_cases h1 : c = '-'
    · rw [if_pos h1]; simp
    · rw [if_neg h1]; simp

theorem readExp_length {s : Str} {r : Option (Bool × List Nat) × Str} (h : readExp s = some r) :
    r.2.length ≤ s.length := by
  unfold readExp at h
  cases s with
  | nil => simp only [Option.some.injEq] at h; subst h; simp
  | cons c rest =>
    have h1 := readDigits_length (expSign rest).2
    have h2 := expSign_length rest
    simp only at h
    by_cases h3 : c = 'e' ∨ c = 'E'
    · rw [if_pos h3] at h
      by_cases h4 : (readDigits (expSign rest).2).1 = []
      · rw [if_pos h4] at h; cases h
      · rw [if_neg h4] at h; injection h with h; subst h; simp only [List.length_cons]; omega
    · rw [if_neg h3] at h; injection h with h; subst h; simp

theorem readNum_length {s : Str} {r : NumTok × Str} (h : readNum s = some r) : r.2.length < s.length := by
  have h1 := readDigits_length (numSign s).2
  have h2 := numSign_length s
  unfold readNum at h
  cases hd : readDigits (numSign s).2 with
  | mk ds rest =>
    rw [hd] at h h1
    cases ds with
    | nil => cases h
    | cons d more =>
      simp only [List.length_cons] at h h1
      by_cases h3 : d = 0 ∧ more ≠ []
      · rw [if_pos h3] at h; cases h
      · rw [if_neg h3] at h
        simp only [Option.bind_eq_bind, Option.bind_eq_some_iff, Option.some.injEq] at h
        obtain ⟨fr, hf, ex, he, rfl⟩ := h
        have := readFrac_length hf
        have := readExp_length he
        simp only
        omega

theorem readHex4_length {s : Str} {r : Nat × Str} (h : readHex4 s = some r) : r.2.length < s.length := by
  unfold readHex4 at h
  split at h
  · simp only [Option.bind_eq_bind, Option.bind_eq_some_iff, Option.some.injEq] at h
    obtain ⟨_, _, _, _, _, _, _, _, rfl⟩ := h
    simp only [List.length_cons]; omega
  · cases h

theorem readUnicode_length {s : Str} {r : Char × Str} (h : readUnicode s = some r) : r.2.length < s.length := by
  unfold readUnicode at h
  simp only [Option.bind_eq_bind] at h
  obtain ⟨hi, hhi, h⟩ := Option.bind_eq_some_iff.1 h
  have h1 := readHex4_length hhi
  by_cases h2 : 0xDC00 ≤ hi.1 ∧ hi.1 ≤ 0xDFFF
  · rw [if_pos h2] at h; cases h
  rw [if_neg h2] at h
  by_cases h3 : 0xD800 ≤ hi.1 ∧ hi.1 ≤ 0xDBFF
  · rw [if_pos h3] at h
    split at h
    · rename_i rest heq
      obtain ⟨lo, hlo, h⟩ := Option.bind_eq_some_iff.1 h
      have h4 := readHex4_length hlo
      rw [heq] at h1
      simp only [List.length_cons] at h1
      by_cases h5 : 0xDC00 ≤ lo.1 ∧ lo.1 ≤ 0xDFFF
      · rw [if_pos h5] at h; injection h with h; subst h; simp only; omega
      · rw [if_neg h5] at h; cases h
    · cases h
  · rw [if_neg h3] at h; injection h with h; subst h; exact h1

theorem readEscape_length {s : Str} {r : Char × Str} (h : readEscape s = some r) : r.2.length < s.length := by
  unfold readEscape at h
  cases s with
  | nil => cases h
  | cons c rest =>
    simp only at h
    rw [List.length_cons]
    split at h
    · injection h with h; subst h; simp
    split at h
    · injection h with h; subst h; simp
    split at h
    · injection h with h; subst h; simp
    split at h
    · injection h with h; subst h; simp
    split at h
    · injection h with h; subst h; simp
    split at h
    · injection h with h; subst h; simp
    split at h
    · injection h with h; subst h; simp
    split at h
    · injection h with h; subst h; simp
    split at h
    · have := readUnicode_length h; omega
    · cases h

theorem readStr_length : ∀ (fuel : Nat) (s : Str) (r : RawStr × Str), readStr fuel s = some r → r.2.length < s.length
  | 0, _, _, h => by cases h
  | _ + 1, [], _, h => by cases h
  | fuel + 1, c :: rest, r, h => by
    unfold readStr at h
    rw [List.length_cons]
    by_cases h1 : c = '"'
    · rw [if_pos h1] at h; injection h with h; subst h; simp
    rw [if_neg h1] at h
    by_cases h2 : c = '\\'
    · rw [if_pos h2] at h
      simp only [Option.bind_eq_bind, Option.bind_eq_some_iff, Option.some.injEq] at h
      obtain ⟨e, he, q, hq, rfl⟩ := h
      have := readEscape_length he
      have := readStr_length fuel _ _ hq
      simp only; omega
    rw [if_neg h2] at h
    by_cases h3 : c.toNat < 32
    · rw [if_pos h3] at h; cases h
    rw [if_neg h3] at h
    simp only [Option.bind_eq_bind, Option.bind_eq_some_iff, Option.some.injEq] at h
    obtain ⟨q, hq, rfl⟩ := h
    have := readStr_length fuel _ _ hq
    simp only; omega

/-- Fuel beyond the length of the input makes no difference. -/
theorem readStr_fuel : ∀ (f g : Nat) (s : Str), s.length ≤ f → s.length ≤ g → readStr f s = readStr g s
  | 0, 0, _, _, _ => rfl
  | 0, g + 1, [], _, _ => rfl
  | 0, _ + 1, _ :: _, h, _ => by simp at h
  | f + 1, 0, [], _, _ => rfl
  | _ + 1, 0, _ :: _, _, h => by simp at h
  | _ + 1, _ + 1, [], _, _ => rfl
  | f + 1, g + 1, c :: rest, hf, hg => by
    rw [List.length_cons] at hf hg
    unfold readStr
    have h1 := readStr_fuel f g rest (by omega) (by omega)
    rw [h1]
    cases he : readEscape rest with
    | none => rfl
    | some e =>
      have := readEscape_length he
      have h2 := readStr_fuel f g e.2 (by omega) (by omega)
      simp only [Option.bind_eq_bind, Option.bind_some, h2]

theorem read_shorter (N : NumText F) : ∀ f : Nat,
    (∀ l s v, readValue N f l s = some v → v.2.length < s.length) ∧
    (∀ l s v, readItems N f l s = some v → v.2.length < s.length) ∧
    (∀ l s v, readMembers N f l s = some v → v.2.length < s.length)
  | 0 => ⟨by intro l s v h; simp [readValue] at h, by intro l s v h; simp [readItems] at h,
      by intro l s v h; simp [readMembers] at h⟩
  | f + 1 => by
    obtain ⟨ihv, ihi, ihm⟩ := read_shorter N f
    refine ⟨?_, ?_, ?_⟩
    · intro l s v h
      rw [readValue] at h
      have hsk := skip_length s
      cases hs : skip s with
      | nil => rw [hs] at h; cases h
      | cons c rest =>
        rw [hs, List.length_cons] at hsk
        have hsk' := skip_length rest
        simp only [hs] at h
        split at h
        · split at h
          · injection h with h; subst h; simp only [List.length_drop]; omega
          · cases h
        split at h
        · split at h
          · injection h with h; subst h; simp only [List.length_drop]; omega
          · cases h
        split at h
        · split at h
          · injection h with h; subst h; simp only [List.length_drop]; omega
          · cases h
        split at h
        · obtain ⟨q, hq, rfl⟩ := Option.map_eq_some_iff.1 h
          have := readStr_length _ _ _ hq
          simp only; omega
        split at h
        · split at h
          · cases h
          · split at h
            · rename_i heq
              rw [heq, List.length_cons] at hsk'
              injection h with h; subst h; simp only; omega
            · obtain ⟨q, hq, rfl⟩ := Option.map_eq_some_iff.1 h
              have := ihi _ _ _ hq
              simp only; omega
        split at h
        · split at h
          · cases h
          · split at h
            · rename_i heq
              rw [heq, List.length_cons] at hsk'
              injection h with h; subst h; simp only; omega
            · obtain ⟨q, hq, rfl⟩ := Option.map_eq_some_iff.1 h
              have := ihm _ _ _ hq
              simp only; omega
        · obtain ⟨q, hq, rfl⟩ := Option.map_eq_some_iff.1 h
          unfold readNumber at hq
          simp only [Option.bind_eq_bind, Option.bind_eq_some_iff, Option.some.injEq] at hq
          obtain ⟨t, ht, x, _, rfl⟩ := hq
          have := readNum_length ht
          rw [List.length_cons] at this
          simp only; omega
    · intro l s v h
      rw [readItems] at h
      obtain ⟨w, hw, h⟩ := Option.bind_eq_some_iff.1 h
      have h1 := ihv _ _ _ hw
      have h2 := skip_length w.2
      split at h
      · rename_i heq
        rw [heq, List.length_cons] at h2
        injection h with h; subst h; simp only; omega
      · rename_i heq
        rw [heq, List.length_cons] at h2
        obtain ⟨q, hq, rfl⟩ := Option.map_eq_some_iff.1 h
        have := ihi _ _ _ hq
        simp only; omega
      · cases h
    · intro l s v h
      rw [readMembers] at h
      have h0 := skip_length s
      split at h
      · rename_i rest heq
        rw [heq, List.length_cons] at h0
        obtain ⟨k, hk, h⟩ := Option.bind_eq_some_iff.1 h
        have h1 := readStr_length _ _ _ hk
        have h2 := skip_length k.2
        split at h
        · rename_i heq2
          rw [heq2, List.length_cons] at h2
          obtain ⟨w, hw, h⟩ := Option.bind_eq_some_iff.1 h
          have h3 := ihv _ _ _ hw
          have h4 := skip_length w.2
          split at h
          · rename_i heq3
            rw [heq3, List.length_cons] at h4
            injection h with h; subst h; simp only; omega
          · rename_i heq3
            rw [heq3, List.length_cons] at h4
            obtain ⟨q, hq, rfl⟩ := Option.map_eq_some_iff.1 h
            have := ihm _ _ _ hq
            simp only; omega
          · cases h
        · cases h
      · cases h

theorem read_fuel (N : NumText F) : ∀ f : Nat,
    (∀ g l s, 2 * s.length + 1 ≤ f → 2 * s.length + 1 ≤ g → readValue N f l s = readValue N g l s) ∧
    (∀ g l s, 2 * s.length + 2 ≤ f → 2 * s.length + 2 ≤ g → readItems N f l s = readItems N g l s) ∧
    (∀ g l s, 2 * s.length + 2 ≤ f → 2 * s.length + 2 ≤ g → readMembers N f l s = readMembers N g l s)
  | 0 => ⟨by intro g l s h; omega, by intro g l s h; omega, by intro g l s h; omega⟩
  | f + 1 => by
    obtain ⟨ihv, ihi, ihm⟩ := read_fuel N f
    refine ⟨?_, ?_, ?_⟩
    · intro g l s hf hg
      obtain ⟨g, rfl⟩ : ∃ k, g = k + 1 := ⟨g - 1, by omega⟩
      rw [readValue, readValue]
      have hsk := skip_length s
      cases hs : skip s with
      | nil => rfl
      | cons c rest =>
        rw [hs, List.length_cons] at hsk
        have hsk' := skip_length rest
        have hi := ihi g (l - 1) (skip rest) (by omega) (by omega)
        have hm := ihm g (l - 1) (skip rest) (by omega) (by omega)
        dsimp only
        by_cases c1 : c = 'n'
        · rw [if_pos c1, if_pos c1]
        rw [if_neg c1, if_neg c1]
        by_cases c2 : c = 't'
        · rw [if_pos c2, if_pos c2]
        rw [if_neg c2, if_neg c2]
        by_cases c3 : c = 'f'
        · rw [if_pos c3, if_pos c3]
        rw [if_neg c3, if_neg c3]
        by_cases c4 : c = '"'
        · rw [if_pos c4, if_pos c4]
        rw [if_neg c4, if_neg c4]
        by_cases c5 : c = '['
        · rw [if_pos c5, if_pos c5]
          by_cases hl : l ≤ 1
          · rw [if_pos hl, if_pos hl]
          rw [if_neg hl, if_neg hl]
          split
          · rfl
          · rw [hi]
        rw [if_neg c5, if_neg c5]
        by_cases c6 : c = '{'
        · rw [if_pos c6, if_pos c6]
          by_cases hl : l ≤ 1
          · rw [if_pos hl, if_pos hl]
          rw [if_neg hl, if_neg hl]
          split
          · rfl
          · rw [hm]
        rw [if_neg c6, if_neg c6]
    · intro g l s hf hg
      obtain ⟨g, rfl⟩ : ∃ k, g = k + 1 := ⟨g - 1, by omega⟩
      rw [readItems, readItems, ihv g l s (by omega) (by omega)]
      cases hw : readValue N g l s with
      | none => rfl
      | some w =>
        simp only [Option.bind_some]
        have h1 := (read_shorter N g).1 _ _ _ hw
        have h2 := skip_length w.2
        split
        · rfl
        · rename_i r heq
          rw [heq, List.length_cons] at h2
          rw [ihi g l r (by omega) (by omega)]
        · rfl
    · intro g l s hf hg
      obtain ⟨g, rfl⟩ : ∃ k, g = k + 1 := ⟨g - 1, by omega⟩
      rw [readMembers, readMembers]
      have h0 := skip_length s
      split
      · rename_i rest heq
        rw [heq, List.length_cons] at h0
        cases hk : readStr rest.length rest with
        | none => rfl
        | some k =>
          simp only [Option.bind_some]
          have h1 := readStr_length _ _ _ hk
          have h2 := skip_length k.2
          split
          · rename_i r heq2
            rw [heq2, List.length_cons] at h2
            rw [ihv g l r (by omega) (by omega)]
            cases hw : readValue N g l r with
            | none => rfl
            | some w =>
              simp only [Option.bind_some]
              have h3 := (read_shorter N g).1 _ _ _ hw
              have h4 := skip_length w.2
              split
              · rfl
              · rename_i r' heq3
                rw [heq3, List.length_cons] at h4
                rw [ihm g l r' (by omega) (by omega)]
              · rfl
          · rfl
      · rfl

/-- Fuel beyond twice the length of the input makes no difference: the reader never runs out of it. -/
theorem readValue_fuel (N : NumText F) (fuel levels : Nat) (s : Str) (h : 2 * s.length + 1 ≤ fuel) :
    readValue N fuel levels s = readValue N (2 * s.length + 1) levels s :=
  (read_fuel N fuel).1 _ _ _ h (Nat.le_refl _)

end Json
end Tokengeex

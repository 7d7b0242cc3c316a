import Verif.Spec.Json
/-
Reading back written numbers and strings.
-/
namespace Tokengeex
namespace Json
open Spec

theorem digitOf_digitChar : ∀ d < 10, digitOf (digitChar d) = some d := by decide

/-- `rest` does not continue a number. -/
def Stops (rest : Str) : Prop := ∀ c r, rest = c :: r → digitOf c = none ∧ c ≠ '.' ∧ c ≠ 'e' ∧ c ≠ 'E'

theorem stops_nil : Stops [] := by intro c r h; cases h

theorem stops_cons {c : Char} {r : Str} (h : digitOf c = none ∧ c ≠ '.' ∧ c ≠ 'e' ∧ c ≠ 'E') : Stops (c :: r) := by
  intro c' r' h'; injection h' with h1 h2; subst h1; exact h

theorem readDigits_stop {rest : Str} (h : ∀ c r, rest = c :: r → digitOf c = none) : readDigits rest = ([], rest) := by
  cases rest with
  | nil => rfl
  | cons c r => unfold readDigits; rw [h c r rfl]

theorem readDigits_map : ∀ (ds : List Nat) (rest : Str), (∀ d ∈ ds, d < 10) →
    (∀ c r, rest = c :: r → digitOf c = none) → readDigits (ds.map digitChar ++ rest) = (ds, rest)
  | [], rest, _, h => readDigits_stop h
  | d :: ds, rest, hd, h => by
    rw [List.map_cons, List.cons_append]
    unfold readDigits
    rw [digitOf_digitChar d (hd d (by simp)), readDigits_map ds rest (fun x hx => hd x (by simp [hx])) h]

theorem digitOf_sign : digitOf '+' = none ∧ digitOf '-' = none ∧ digitOf '.' = none ∧ digitOf 'e' = none := by decide

/-- The text of the exponent. -/
def expText : Option (Bool × List Nat) → Str
  | some (true, ds) => 'e' :: ds.map digitChar
  | some (false, ds) => 'e' :: '-' :: ds.map digitChar
  | none => []

def fracText : Option (List Nat) → Str
  | some ds => '.' :: ds.map digitChar
  | none => []

theorem numText_eq (t : NumTok) : numText t = (if t.negative then ['-'] else []) ++ t.int.map digitChar ++
    fracText t.frac ++ expText t.exp := by
  unfold numText fracText expText
  cases t.frac <;> rcases t.exp with _ | ⟨_ | _, _⟩ <;> rfl

theorem readExp_expText {e : Option (Bool × List Nat)} (he : ∀ sign ds, e = some (sign, ds) → ds ≠ [] ∧ ∀ d ∈ ds, d < 10)
    {rest : Str} (hr : Stops rest) : readExp (expText e ++ rest) = some (e, rest) := by
  have hr' : ∀ c r, rest = c :: r → digitOf c = none := fun c r h => (hr c r h).1
  rcases e with _ | ⟨sign, ds⟩
  · cases rest with
    | nil => rfl
    | cons c r =>
      have := hr c r rfl
      simp only [expText, List.nil_append, readExp]
      rw [if_neg (fun h => h.elim this.2.2.1 this.2.2.2)]
  · obtain ⟨hne, hd⟩ := he sign ds rfl
    have hread := readDigits_map ds rest hd hr'
    cases sign with
    | false =>
      have hm : expSign ('-' :: (ds.map digitChar ++ rest)) = (false, ds.map digitChar ++ rest) := rfl
      simp only [expText, List.cons_append, readExp]
      rw [if_pos (Or.inl trivial), hm, hread, if_neg hne]
    | true =>
      cases ds with
      | nil => exact absurd rfl hne
      | cons d ds =>
        have hd' := digitOf_digitChar d (hd d (by simp))
        have h1 : digitChar d ≠ '+' := by intro h; rw [h, digitOf_sign.1] at hd'; cases hd'
        have h2 : digitChar d ≠ '-' := by intro h; rw [h, digitOf_sign.2.1] at hd'; cases hd'
        have hm : expSign (digitChar d :: (ds.map digitChar ++ rest)) =
            (true, digitChar d :: (ds.map digitChar ++ rest)) := by
          simp only [expSign]
          rw [if_neg h1, if_neg h2]
        simp only [expText, List.cons_append, readExp, List.map_cons]
        rw [if_pos (Or.inl trivial), hm]
        simp only [List.map_cons, List.cons_append] at hread
        rw [hread, if_neg (by simp)]

theorem expText_head (e : Option (Bool × List Nat)) {rest : Str} (hr : Stops rest) :
    ∀ c r, expText e ++ rest = c :: r → digitOf c = none ∧ c ≠ '.' := by
  intro c r h
  rcases e with _ | ⟨_ | _, ds⟩
  · exact ⟨(hr c r h).1, (hr c r h).2.1⟩
  · simp only [expText, List.cons_append, List.cons.injEq] at h
    obtain ⟨rfl, _⟩ := h
    decide
  · simp only [expText, List.cons_append, List.cons.injEq] at h
    obtain ⟨rfl, _⟩ := h
    decide

theorem readFrac_fracText {f : Option (List Nat)} (hf : ∀ ds, f = some ds → ds ≠ [] ∧ ∀ d ∈ ds, d < 10) {rest : Str}
    (hr : ∀ c r, rest = c :: r → digitOf c = none ∧ c ≠ '.') : readFrac (fracText f ++ rest) = some (f, rest) := by
  cases f with
  | none =>
    cases rest with
    | nil => rfl
    | cons c r =>
      have := hr c r rfl
      simp only [fracText, List.nil_append, readFrac]
      rw [if_neg this.2]
  | some ds =>
    obtain ⟨hne, hd⟩ := hf ds rfl
    simp only [fracText, List.cons_append, readFrac]
    rw [if_pos trivial, readDigits_map ds rest hd (fun c r h => (hr c r h).1), if_neg hne]

theorem fracText_head (f : Option (List Nat)) {rest : Str} (hr : ∀ c r, rest = c :: r → digitOf c = none) :
    ∀ c r, fracText f ++ rest = c :: r → digitOf c = none := by
  intro c r h
  cases f with
  | none => exact hr c r h
  | some ds =>
    simp only [fracText, List.cons_append, List.cons.injEq] at h
    obtain ⟨rfl, _⟩ := h
    decide

theorem readNum_numText {t : NumTok} (h : ValidNum t) {rest : Str} (hr : Stops rest) :
    readNum (numText t ++ rest) = some (t, rest) := by
  obtain ⟨neg, int, frac, exp⟩ := t
  rw [numText_eq]
  obtain ⟨hid, hip, hz, hfd, hed⟩ := h
  simp only at hid hip hz hfd hed ⊢
  cases int with
  | nil => exact absurd rfl hip
  | cons d more =>
    have hexp := readExp_expText hed hr
    have hfrac := readFrac_fracText hfd (expText_head exp hr)
    have hint := readDigits_map (d :: more) (fracText frac ++ (expText exp ++ rest)) hid
      (fracText_head frac (fun c r h => (expText_head exp hr c r h).1))
    have hd' := digitOf_digitChar d (hid d (by simp))
    have h2 : digitChar d ≠ '-' := by intro h; rw [h, digitOf_sign.2.1] at hd'; cases hd'
    have hlead : ¬ (d = 0 ∧ more ≠ []) := by
      rintro ⟨rfl, hm⟩; exact hm (hz more rfl)
    have hm : numSign ((if neg = true then ['-'] else []) ++ (d :: more).map digitChar ++ fracText frac ++
          expText exp ++ rest) = (neg, (d :: more).map digitChar ++ (fracText frac ++ (expText exp ++ rest))) := by
      cases neg with
      | true => simp [numSign]
      | false =>
        simp only [Bool.false_eq_true, if_false, List.nil_append, List.map_cons, List.cons_append, List.append_assoc,
          numSign]
        rw [if_neg h2]
    unfold readNum
    rw [hm]
    simp only [hint, if_neg hlead, hfrac, hexp, Option.bind_eq_bind, Option.bind_some]

/-! ### Strings -/

theorem hexOf_hexChar : ∀ d < 16, hexOf (hexChar d) = some d := by decide

/-- The escape sequence of a character that needs one is read back. -/
theorem readEscape_escapeChar (c : Char) (h : NeedsEscape c) :
    ∃ e, escapeChar c = '\\' :: e ∧ e.length ≤ 5 ∧ ∀ rest, readEscape (e ++ rest) = some (c, rest) := by
  by_cases h1 : c = '"'
  · subst h1; exact ⟨['"'], rfl, by decide, fun rest => rfl⟩
  by_cases h2 : c = '\\'
  · subst h2; exact ⟨['\\'], rfl, by decide, fun rest => rfl⟩
  by_cases h3 : c = '\x08'
  · subst h3; exact ⟨['b'], rfl, by decide, fun rest => rfl⟩
  by_cases h4 : c = '\x0c'
  · subst h4; exact ⟨['f'], rfl, by decide, fun rest => rfl⟩
  by_cases h5 : c = '\n'
  · subst h5; exact ⟨['n'], rfl, by decide, fun rest => rfl⟩
  by_cases h6 : c = '\r'
  · subst h6; exact ⟨['r'], rfl, by decide, fun rest => rfl⟩
  by_cases h7 : c = '\t'
  · subst h7; exact ⟨['t'], rfl, by decide, fun rest => rfl⟩
  have h8 : c.toNat < 32 := by
    rcases h with h | h | h
    · exact absurd h h1
    · exact absurd h h2
    · exact h
  refine ⟨['u', '0', '0', hexChar (c.toNat / 16), hexChar (c.toNat % 16)], ?_, by simp, fun rest => ?_⟩
  · unfold escapeChar
    rw [if_neg h1, if_neg h2, if_neg h3, if_neg h4, if_neg h5, if_neg h6, if_neg h7, if_pos h8]
  · have hz : hexOf '0' = some 0 := by decide
    have hx := hexOf_hexChar (c.toNat / 16) (by omega)
    have hy := hexOf_hexChar (c.toNat % 16) (by omega)
    have hread : readHex4 ('0' :: '0' :: hexChar (c.toNat / 16) :: hexChar (c.toNat % 16) :: rest) =
        some (c.toNat, rest) := by
      simp only [readHex4, hz, hx, hy, Option.bind_eq_bind, Option.bind_some]
      congr 2
      omega
    have hru : readUnicode ('0' :: '0' :: hexChar (c.toNat / 16) :: hexChar (c.toNat % 16) :: rest) = some (c, rest) := by
      unfold readUnicode
      simp only [hread, Option.bind_eq_bind, Option.bind_some]
      rw [if_neg (by omega), if_neg (by omega), Char.ofNat_toNat]
    simp only [List.cons_append, List.nil_append]
    unfold readEscape
    dsimp only
    rw [if_neg (by decide), if_neg (by decide), if_neg (by decide), if_neg (by decide), if_neg (by decide),
      if_neg (by decide), if_neg (by decide), if_neg (by decide), if_pos rfl, hru]

theorem escapeChar_plain {c : Char} (h : ¬ NeedsEscape c) : escapeChar c = [c] := by
  unfold NeedsEscape at h
  have h8 : ¬ c.toNat < 32 := fun h' => h (Or.inr (Or.inr h'))
  have ne : ∀ d : Char, d.toNat < 32 → c ≠ d := by rintro d hd rfl; exact h8 hd
  unfold escapeChar
  rw [if_neg (fun h' => h (Or.inl h')), if_neg (fun h' => h (Or.inr (Or.inl h'))), if_neg (ne _ (by decide)),
    if_neg (ne _ (by decide)), if_neg (ne _ (by decide)), if_neg (ne _ (by decide)), if_neg (ne _ (by decide)),
    if_neg h8]

theorem readStr_escaped : ∀ (s : Str) (fuel : Nat) (rest : Str), (s.flatMap escapeChar).length < fuel →
    readStr fuel (s.flatMap escapeChar ++ '"' :: rest) = some (seenStr s, rest)
  | [], fuel, rest, hf => by
    cases fuel with
    | zero => simp at hf
    | succ fuel => simp [readStr, seenStr]
  | c :: s, fuel, rest, hf => by
    rw [List.flatMap_cons, List.append_assoc]
    rw [List.flatMap_cons, List.length_append] at hf
    cases fuel with
    | zero => omega
    | succ fuel =>
      by_cases hc : NeedsEscape c
      · obtain ⟨e, he, _, hread⟩ := readEscape_escapeChar c hc
        have ih := readStr_escaped s fuel rest (by rw [he] at hf; simp only [List.length_cons] at hf; omega)
        rw [he, List.cons_append]
        unfold readStr
        rw [if_neg (show ¬ '\\' = '"' by decide), if_pos rfl]
        simp only [hread, Option.bind_eq_bind, Option.bind_some, ih]
        have : (∃ c' ∈ c :: s, NeedsEscape c') := ⟨c, by simp, hc⟩
        simp only [seenStr, this, decide_true]
      · have ih := readStr_escaped s fuel rest (by rw [escapeChar_plain hc] at hf; simp only [List.length_cons] at hf; omega)
        rw [escapeChar_plain hc, List.cons_append, List.nil_append]
        unfold readStr
        have hc' := hc
        unfold NeedsEscape at hc'
        rw [if_neg (fun h' => hc' (Or.inl h')), if_neg (fun h' => hc' (Or.inr (Or.inl h'))),
          if_neg (fun h' => hc' (Or.inr (Or.inr h')))]
        simp only [Option.bind_eq_bind, ih, Option.bind_some, seenStr]
        congr 3
        simp [hc]

theorem readStr_writeStr (s rest : Str) :
    ∃ tl, writeStr s ++ rest = '"' :: tl ∧ readStr tl.length tl = some (seenStr s, rest) := by
  refine ⟨s.flatMap escapeChar ++ '"' :: rest, by simp [writeStr], ?_⟩
  exact readStr_escaped s _ rest (by simp)

end Json
end Tokengeex

import Verif.Model.Patterns
import Verif.Proofs.Regex
/-
Reading patterns that are put together from the texts of others.
-/
namespace Tokengeex
open Spec

namespace Re

/-! ### Text that follows does not change the tokens -/

theorem lexHex_append (t : Str) : ∀ (n acc : Nat) (s : Str) {v : Nat} {r : Str}, lexHex n acc s = some (v, r) →
    lexHex n acc (s ++ t) = some (v, r ++ t) := by
  intro n
  induction n with
  | zero => intro acc s v r h; rw [lexHex] at h ⊢; cases h; rfl
  | succ n ih =>
    intro acc s v r h
    cases s with
    | nil => cases h
    | cons c s =>
      rw [lexHex] at h
      rw [List.cons_append, lexHex]
      cases hc : hexValue c with
      | none => rw [hc] at h; cases h
      | some x => rw [hc] at h; exact ih _ _ h

theorem lexEscape_append (t s : Str) {x : List (Nat × Nat)} {r : Str} (h : lexEscape s = some (x, r)) :
    lexEscape (s ++ t) = some (x, r ++ t) := by
  cases s with
  | nil => cases h
  | cons c s =>
    rw [lexEscape] at h
    rw [List.cons_append, lexEscape]
    have hhex : ∀ n, (lexHex n 0 s).map (fun p => ([(p.1, p.1)], p.2)) = some (x, r) →
        (lexHex n 0 (s ++ t)).map (fun p => ([(p.1, p.1)], p.2)) = some (x, r ++ t) := by
      intro n h
      obtain ⟨⟨v, r'⟩, h1, h2⟩ := Option.map_eq_some_iff.1 h
      cases h2
      rw [lexHex_append t _ _ _ h1]
      rfl
    by_cases h1 : c = 'n'
    · rw [if_pos h1] at h ⊢; cases h; rfl
    rw [if_neg h1] at h ⊢
    by_cases h2 : c = 't'
    · rw [if_pos h2] at h ⊢; cases h; rfl
    rw [if_neg h2] at h ⊢
    by_cases h3 : c = 'r'
    · rw [if_pos h3] at h ⊢; cases h; rfl
    rw [if_neg h3] at h ⊢
    by_cases h4 : c = 's'
    · rw [if_pos h4] at h ⊢; cases h; rfl
    rw [if_neg h4] at h ⊢
    by_cases h5 : c = 'x'
    · rw [if_pos h5] at h ⊢; exact hhex _ h
    rw [if_neg h5] at h ⊢
    by_cases h6 : c = 'u'
    · rw [if_pos h6] at h ⊢
      obtain ⟨p, h7, h8⟩ := Option.bind_eq_some_iff.1 h
      rw [lexHex_append t _ _ _ h7, Option.bind_some]
      by_cases h9 : p.1.isValidChar
      · rw [if_pos h9] at h8 ⊢; cases h8; rfl
      · rw [if_neg h9] at h8; cases h8
    rw [if_neg h6] at h ⊢
    by_cases h7 : isMeta c = true
    · rw [if_pos h7] at h ⊢; cases h; rfl
    · rw [if_neg h7] at h; cases h

theorem lexMember_append (t s : Str) {x : List (Nat × Nat)} {r : Str} (h : lexMember s = some (x, r)) :
    lexMember (s ++ t) = some (x, r ++ t) := by
  cases s with
  | nil => cases h
  | cons c s =>
    rw [lexMember] at h
    rw [List.cons_append, lexMember]
    by_cases hc : c = '\\'
    · rw [if_pos hc] at h ⊢; exact lexEscape_append t s h
    · rw [if_neg hc] at h ⊢; cases h; rfl

theorem unsupported_append (t : Str) (c d : Char) (s : Str) : unsupported (c :: d :: s ++ t) = unsupported (c :: d :: s) := by
  simp [unsupported, List.isPrefixOf]

theorem isPrefixOf_append {p s : Str} (t : Str) (h : p.isPrefixOf s = true) : p.isPrefixOf (s ++ t) = true := by
  rw [List.isPrefixOf_iff_prefix] at h ⊢
  exact h.trans (List.prefix_append _ _)

theorem lexClass_nil (fuel : Nat) : lexClass fuel [] = none := by cases fuel <;> rfl

theorem rangeEnd_some (t : Str) {r x : Str} (h : rangeEnd r = some x) : rangeEnd (r ++ t) = some (x ++ t) := by
  unfold rangeEnd at h
  split at h
  · rename_i d s
    by_cases hc : d = ']' ∨ unsupported ('-' :: d :: s) = true
    · rw [if_pos hc] at h; cases h
    · rw [if_neg hc] at h
      cases h
      show rangeEnd ('-' :: d :: (s ++ t)) = _
      rw [rangeEnd]
      have := unsupported_append t '-' d s
      rw [if_neg (by rw [List.cons_append, List.cons_append] at this; rw [this]; exact hc)]
      rfl
  · cases h

theorem lexClass_dash (fuel : Nat) : lexClass fuel ['-'] = none := by
  cases fuel with
  | zero => rfl
  | succ fuel =>
    rw [lexClass, if_neg (by decide), if_neg (by decide), if_neg (by decide)]
    have h1 : lexMember ['-'] = some ([(45, 45)], []) := by decide
    have h2 : rangeEnd [] = none := rfl
    rw [h1, Option.bind_some]
    dsimp only
    rw [h2]
    dsimp only
    rw [lexClass_nil]
    rfl

theorem rangeEnd_none (t : Str) {r : Str} {fuel : Nat} {p : List (Nat × Nat) × Str} (h : rangeEnd r = none)
    (hc : lexClass fuel r = some p) : rangeEnd (r ++ t) = none := by
  match r with
  | [] => rw [lexClass_nil] at hc; cases hc
  | [e] =>
    have he : e ≠ '-' := by rintro rfl; rw [lexClass_dash] at hc; cases hc
    show rangeEnd (e :: t) = none
    unfold rangeEnd
    split
    · rename_i heq; cases heq; exact absurd rfl he
    · rfl
  | e :: d :: s =>
    show rangeEnd (e :: d :: (s ++ t)) = none
    by_cases he : e = '-'
    · subst he
      rw [rangeEnd] at h ⊢
      have := unsupported_append t '-' d s
      rw [List.cons_append, List.cons_append] at this
      rw [this]
      by_cases hc : d = ']' ∨ unsupported ('-' :: d :: s) = true
      · rw [if_pos hc]
      · rw [if_neg hc] at h; cases h
    · unfold rangeEnd
      split
      · rename_i heq; cases heq; exact absurd rfl he
      · rfl

theorem lexClass_append (t : Str) : ∀ (fuel : Nat) (s : Str) {x : List (Nat × Nat)} {r : Str}, lexClass fuel s = some (x, r) →
    ∀ g, fuel ≤ g → lexClass g (s ++ t) = some (x, r ++ t) := by
  intro fuel
  induction fuel with
  | zero => intro s x r h; cases h
  | succ fuel ih =>
    intro s x r h g hg
    obtain ⟨g, rfl⟩ : ∃ g', g = g' + 1 := ⟨g - 1, by omega⟩
    have hg : fuel ≤ g := by omega
    have hmap : ∀ (s : Str) (f : List (Nat × Nat) → List (Nat × Nat)),
        ((lexClass fuel s).map fun p => (f p.1, p.2)) = some (x, r) →
        ((lexClass g (s ++ t)).map fun p => (f p.1, p.2)) = some (x, r ++ t) := by
      intro s f h
      obtain ⟨⟨v, r'⟩, h1, h2⟩ := Option.map_eq_some_iff.1 h
      cases h2
      rw [ih s h1 g hg]
      rfl
    cases s with
    | nil => cases h
    | cons c s =>
      rw [lexClass] at h
      rw [List.cons_append, lexClass]
      by_cases h1 : c = ']'
      · rw [if_pos h1] at h ⊢; cases h; rfl
      rw [if_neg h1] at h ⊢
      by_cases h2 : "[:punct:]".toList.isPrefixOf (c :: s) = true
      · rw [if_pos h2] at h
        have h2' := isPrefixOf_append t h2
        rw [List.cons_append] at h2'
        rw [if_pos h2', ← List.cons_append, List.drop_append_of_le_length]
        · exact hmap _ _ h
        · have := (List.isPrefixOf_iff_prefix.1 h2).length_le
          exact this
      rw [if_neg h2] at h
      by_cases h3 : unsupported (c :: s) = true
      · rw [if_pos h3] at h; cases h
      rw [if_neg h3] at h
      obtain ⟨⟨lo, r1⟩, h4, h5⟩ := Option.bind_eq_some_iff.1 h
      dsimp only at h5
      cases s with
      | nil =>
        exfalso
        have : r1 = [] := by
          rw [lexMember] at h4
          by_cases hc : c = '\\'
          · rw [if_pos hc] at h4; cases h4
          · rw [if_neg hc] at h4; cases h4; rfl
        subst this
        cases hr : rangeEnd [] with
        | none => rw [hr] at h5; dsimp only at h5; rw [lexClass_nil] at h5; cases h5
        | some _ => unfold rangeEnd at hr; cases hr
      | cons d s =>
        have hno : ¬ "[:punct:]".toList.isPrefixOf (c :: (d :: s ++ t)) = true := by
          intro hp
          have : c = '[' := by
            have hp := List.isPrefixOf_iff_prefix.1 hp
            exact (List.cons_prefix_cons.1 hp).1.symm
          subst this
          exact h3 (by simp [unsupported, List.isPrefixOf])
        have hu := unsupported_append t c d s
        have hm := lexMember_append t _ h4
        rw [List.cons_append] at hu hm
        rw [if_neg hno, hu, if_neg h3, hm, Option.bind_some]
        dsimp only
        cases hr : rangeEnd r1 with
        | none =>
          rw [hr] at h5
          dsimp only at h5
          obtain ⟨p, hp, _⟩ := Option.map_eq_some_iff.1 h5
          rw [rangeEnd_none t hr hp]
          exact hmap _ (fun l => lo ++ l) h5
        | some r2 =>
          rw [hr] at h5
          dsimp only at h5
          rw [rangeEnd_some t hr]
          dsimp only
          obtain ⟨⟨hi, r3⟩, h6, h7⟩ := Option.bind_eq_some_iff.1 h5
          obtain ⟨ab, h8, h9⟩ := Option.bind_eq_some_iff.1 h7
          dsimp only at h8 h9
          rw [lexMember_append t _ h6, Option.bind_some]
          dsimp only
          rw [h8, Option.bind_some]
          exact hmap _ (fun l => ab :: l) h9

theorem strip_append (c : Char) (t : Str) {s : Str} (h : s ≠ []) :
    strip c (s ++ t) = ((strip c s).1, (strip c s).2 ++ t) := by
  cases s with
  | nil => exact absurd rfl h
  | cons d s =>
    rw [List.cons_append, strip, strip]
    by_cases hd : d = c
    · rw [if_pos hd, if_pos hd]
    · rw [if_neg hd, if_neg hd]; rfl

theorem lexBracket_append (t s : Str) {x : Re} {r : Str} (h : lexBracket s = some (x, r)) :
    lexBracket (s ++ t) = some (x, r ++ t) := by
  unfold lexBracket at h ⊢
  dsimp only at h ⊢
  obtain ⟨⟨v, r'⟩, h1, h2⟩ := Option.map_eq_some_iff.1 h
  cases h2
  have hne : ∀ c s, s = [] → (strip c s).2 = [] := by rintro c s rfl; rfl
  have hn2 : (strip '^' s).2 ≠ [] := by
    intro he
    rw [hne ']' _ he, lexClass_nil] at h1
    cases h1
  have hn1 : s ≠ [] := fun he => hn2 (hne '^' s he)
  rw [strip_append '^' t hn1]
  dsimp only
  rw [strip_append ']' t hn2]
  dsimp only
  rw [lexClass_append t _ _ h1 _ (by simp)]
  rfl

theorem lexNat_append (t : Str) : ∀ (s : Str) (acc : Nat) {m : Nat} {c : Char} {r : Str}, lexNat acc s = (m, c :: r) →
    lexNat acc (s ++ t) = (m, c :: (r ++ t)) := by
  intro s
  induction s with
  | nil => intro acc m c r h; cases h
  | cons d s ih =>
    intro acc m c r h
    rw [lexNat] at h
    rw [List.cons_append, lexNat]
    by_cases hd : isDigit d = true
    · rw [if_pos hd] at h ⊢; exact ih _ h
    · rw [if_neg hd] at h ⊢; cases h; rfl

theorem dropLazy_append {t : Str} (ht : t.head? ≠ some '?') (s : Str) : dropLazy (s ++ t) = dropLazy s ++ t := by
  cases s with
  | nil =>
    cases t with
    | nil => rfl
    | cons c t =>
      have hc : c ≠ '?' := by simpa using ht
      show dropLazy (c :: t) = c :: t
      unfold dropLazy
      split
      · rename_i heq; cases heq; exact absurd rfl hc
      · rfl
  | cons c s =>
    by_cases hc : c = '?'
    · subst hc; rfl
    · have : ∀ s, dropLazy (c :: s) = c :: s := by
        intro s
        unfold dropLazy
        split
        · rename_i heq; cases heq; exact absurd rfl hc
        · rfl
      rw [List.cons_append, this, this]
      rfl

theorem lexCountEnd_append {t : Str} (ht : t.head? ≠ some '?') (m n : Nat) (s : Str) {x : Tok} {r : Str}
    (h : lexCountEnd m n s = some (x, r)) : lexCountEnd m n (s ++ t) = some (x, r ++ t) := by
  cases s with
  | nil => cases h
  | cons c s =>
    rw [lexCountEnd] at h
    rw [List.cons_append, lexCountEnd]
    by_cases h1 : c = '}' ∧ m ≤ n
    · rw [if_pos h1] at h ⊢; cases h; rw [dropLazy_append ht]
    · rw [if_neg h1] at h; cases h

theorem lexNat_split (c : Char) (t s : Str) : (∃ m, lexNat 0 (c :: s) = (m, [])) ∨
    ∃ m d r, lexNat 0 (c :: s) = (m, d :: r) ∧ lexNat 0 (c :: (s ++ t)) = (m, d :: (r ++ t)) := by
  cases h : lexNat 0 (c :: s) with
  | mk m r =>
    cases r with
    | nil => exact Or.inl ⟨m, rfl⟩
    | cons d r => exact Or.inr ⟨m, d, r, rfl, lexNat_append t _ _ h⟩

theorem lexCountMax_append {t : Str} (ht : t.head? ≠ some '?') (m : Nat) (s : Str) {x : Tok} {r : Str}
    (h : lexCountMax m s = some (x, r)) : lexCountMax m (s ++ t) = some (x, r ++ t) := by
  cases s with
  | nil => cases h
  | cons c s =>
    rw [lexCountMax] at h
    rw [List.cons_append, lexCountMax]
    by_cases h1 : c = '}'
    · rw [if_pos h1] at h ⊢; cases h; rw [dropLazy_append ht]
    rw [if_neg h1] at h ⊢
    by_cases h2 : isDigit c = true
    · rw [if_pos h2] at h ⊢
      rcases lexNat_split c t s with ⟨n, e⟩ | ⟨n, d, r', e, e'⟩
      · rw [e] at h; cases h
      · rw [e] at h; rw [e']; exact lexCountEnd_append ht m n (d :: r') h
    · rw [if_neg h2] at h; cases h

theorem lexCountMin_append {t : Str} (ht : t.head? ≠ some '?') (m : Nat) (s : Str) {x : Tok} {r : Str}
    (h : lexCountMin m s = some (x, r)) : lexCountMin m (s ++ t) = some (x, r ++ t) := by
  cases s with
  | nil => cases h
  | cons c s =>
    rw [lexCountMin] at h
    rw [List.cons_append, lexCountMin]
    by_cases h1 : c = '}'
    · rw [if_pos h1] at h ⊢; cases h; rw [dropLazy_append ht]
    rw [if_neg h1] at h ⊢
    by_cases h2 : c = ','
    · rw [if_pos h2] at h ⊢; exact lexCountMax_append ht m s h
    · rw [if_neg h2] at h; cases h

theorem lexCount_append {t : Str} (ht : t.head? ≠ some '?') (s : Str) {x : Tok} {r : Str} (h : lexCount s = some (x, r)) :
    lexCount (s ++ t) = some (x, r ++ t) := by
  cases s with
  | nil => cases h
  | cons c s =>
    rw [lexCount] at h
    rw [List.cons_append, lexCount]
    by_cases h2 : isDigit c = true
    · rw [if_pos h2] at h ⊢
      rcases lexNat_split c t s with ⟨n, e⟩ | ⟨n, d, r', e, e'⟩
      · rw [e] at h; cases h
      · rw [e] at h; rw [e']; exact lexCountMin_append ht n (d :: r') h
    · rw [if_neg h2] at h; cases h

theorem strip_true {c : Char} {s : Str} (h : (strip c s).1 = true) : s = c :: (strip c s).2 := by
  cases s with
  | nil => cases h
  | cons d s =>
    rw [strip] at h ⊢
    by_cases hd : d = c
    · rw [if_pos hd, hd]
    · rw [if_neg hd] at h; cases h

theorem strip_head {c : Char} {t : Str} (ht : t.head? ≠ some c) : strip c t = (false, t) := by
  cases t with
  | nil => rfl
  | cons d t => rw [strip, if_neg (by simpa using ht)]

theorem lexOpening_append {t : Str} (ht : t.head? ≠ some '?') (s : Str) {x : Tok} {r : Str} (h : lexOpening s = some (x, r)) :
    lexOpening (s ++ t) = some (x, r ++ t) := by
  cases s with
  | nil =>
    rw [lexOpening] at h
    dsimp only [strip] at h
    rw [if_neg (by decide)] at h
    cases h
    rw [lexOpening, List.nil_append, strip_head ht]
    rfl
  | cons c s =>
    rw [lexOpening] at h ⊢
    rw [strip_append _ _ (by simp)]
    dsimp only at h ⊢
    by_cases h1 : (strip '?' (c :: s)).1 = true
    · rw [if_pos h1] at h ⊢
      by_cases h2 : (strip ':' (strip '?' (c :: s)).2).1 = true
      · have hne : (strip '?' (c :: s)).2 ≠ [] := by rw [strip_true h2]; simp
        rw [strip_append _ _ hne]
        dsimp only
        rw [if_pos h2] at h ⊢
        cases h; rfl
      · rw [if_neg h2] at h; cases h
    · rw [if_neg h1] at h ⊢; cases h; rfl

theorem lexOne_append {t : Str} (ht : t.head? ≠ some '?') (s : Str) {x : Tok} {r : Str} (h : lexOne s = some (x, r)) :
    lexOne (s ++ t) = some (x, r ++ t) := by
  cases s with
  | nil => cases h
  | cons c s =>
    rw [lexOne] at h
    rw [List.cons_append, lexOne]
    by_cases h1 : c = '('
    · rw [if_pos h1] at h ⊢; exact lexOpening_append ht s h
    rw [if_neg h1] at h ⊢
    by_cases h2 : c = ')'
    · rw [if_pos h2] at h ⊢; cases h; rfl
    rw [if_neg h2] at h ⊢
    by_cases h2 : c = '|'
    · rw [if_pos h2] at h ⊢; cases h; rfl
    rw [if_neg h2] at h ⊢
    by_cases h2 : c = '.'
    · rw [if_pos h2] at h ⊢; cases h; rfl
    rw [if_neg h2] at h ⊢
    by_cases h2 : c = '^'
    · rw [if_pos h2] at h ⊢; cases h; rfl
    rw [if_neg h2] at h ⊢
    by_cases h2 : c = '$'
    · rw [if_pos h2] at h ⊢; cases h; rfl
    rw [if_neg h2] at h ⊢
    by_cases h2 : c = '?'
    · rw [if_pos h2] at h ⊢; cases h; rw [dropLazy_append ht]
    rw [if_neg h2] at h ⊢
    by_cases h2 : c = '*'
    · rw [if_pos h2] at h ⊢; cases h; rw [dropLazy_append ht]
    rw [if_neg h2] at h ⊢
    by_cases h2 : c = '+'
    · rw [if_pos h2] at h ⊢; cases h; rw [dropLazy_append ht]
    rw [if_neg h2] at h ⊢
    by_cases h2 : c = '{'
    · rw [if_pos h2] at h ⊢; exact lexCount_append ht s h
    rw [if_neg h2] at h ⊢
    by_cases h2 : c = '\\'
    · rw [if_pos h2] at h ⊢
      obtain ⟨⟨v, r'⟩, h3, h4⟩ := Option.map_eq_some_iff.1 h
      cases h4
      rw [lexEscape_append t s h3]
      rfl
    rw [if_neg h2] at h ⊢
    by_cases h2 : c = '['
    · rw [if_pos h2] at h ⊢
      obtain ⟨⟨v, r'⟩, h3, h4⟩ := Option.map_eq_some_iff.1 h
      cases h4
      rw [lexBracket_append t s h3]
      rfl
    rw [if_neg h2] at h ⊢
    cases h; rfl

/-! ### Tokens of a text made of parts -/

theorem lexAll_mono : ∀ (f : Nat) (s : Str) {ts : List Tok}, lexAll f s = some ts → ∀ g, f ≤ g → lexAll g s = some ts := by
  intro f
  induction f with
  | zero =>
    intro s ts h g _
    cases s with
    | nil => cases g <;> exact h
    | cons c s => cases h
  | succ f ih =>
    intro s ts h g hg
    cases s with
    | nil => cases g <;> exact h
    | cons c s =>
      obtain ⟨g, rfl⟩ : ∃ g', g = g' + 1 := ⟨g - 1, by omega⟩
      rw [lexAll] at h ⊢
      obtain ⟨p, h1, h2⟩ := Option.bind_eq_some_iff.1 h
      obtain ⟨us, h3, h4⟩ := Option.map_eq_some_iff.1 h2
      rw [h1, Option.bind_some, ih _ h3 g (by omega), ← h4]
      rfl

/-- The text has these tokens. -/
def Lexes (s : Str) (ts : List Tok) : Prop := lexAll s.length s = some ts

theorem Lexes.nil : Lexes [] [] := rfl

theorem Lexes.one {s r : Str} {x : Tok} {ts : List Tok} (h : lexOne s = some (x, r)) (hl : r.length < s.length)
    (hr : Lexes r ts) : Lexes s (x :: ts) := by
  cases s with
  | nil => cases h
  | cons c s =>
    unfold Lexes
    rw [List.length_cons, lexAll, h, Option.bind_some]
    dsimp only
    rw [lexAll_mono _ _ hr _ (by simp at hl; omega)]
    rfl

theorem lexAll_append {t : Str} (ht : t.head? ≠ some '?') {g : Nat} {us : List Tok} (hu : lexAll g t = some us) :
    ∀ (f : Nat) (s : Str) {ts : List Tok}, lexAll f s = some ts → lexAll (f + g) (s ++ t) = some (ts ++ us) := by
  intro f
  induction f with
  | zero =>
    intro s ts h
    cases s with
    | nil => cases h; rw [Nat.zero_add]; exact hu
    | cons c s => cases h
  | succ f ih =>
    intro s ts h
    cases s with
    | nil => cases h; exact lexAll_mono _ _ hu _ (by omega)
    | cons c s =>
      rw [lexAll] at h
      obtain ⟨⟨x, r⟩, h1, h2⟩ := Option.bind_eq_some_iff.1 h
      obtain ⟨vs, h3, h4⟩ := Option.map_eq_some_iff.1 h2
      have := lexOne_append ht _ h1
      rw [List.cons_append] at this
      rw [List.cons_append, Nat.succ_add, lexAll, this, Option.bind_some, ih _ h3, ← h4]
      rfl

theorem Lexes.append {s t : Str} {ts us : List Tok} (hs : Lexes s ts) (ht : Lexes t us) (hq : t.head? ≠ some '?') :
    Lexes (s ++ t) (ts ++ us) := by
  unfold Lexes at *
  rw [List.length_append]
  exact lexAll_append hq ht _ _ hs

/-! ### Structure of a list of tokens made of parts -/

theorem step_base {st st' : List Frame} {t : Tok} (h : step st t = some st') (base : List Frame) :
    step (st ++ base) t = some (st' ++ base) := by
  cases st with
  | nil => cases h
  | cons f outer =>
    cases t with
    | atom r => simp only [step] at h; cases h; rfl
    | post min max =>
      simp only [step] at h
      simp only [step, List.cons_append]
      cases hi : f.items with
      | nil => rw [hi] at h; cases h
      | cons a rest => rw [hi] at h; cases h; rfl
    | bar => simp only [step] at h; cases h; rfl
    | opening => simp only [step] at h; cases h; rfl
    | closing =>
      cases outer with
      | nil => cases h
      | cons g outer => simp only [step] at h; cases h; rfl

theorem foldlM_base : ∀ (ts : List Tok) {st st' : List Frame}, ts.foldlM step st = some st' → ∀ base,
    ts.foldlM step (st ++ base) = some (st' ++ base) := by
  intro ts
  induction ts with
  | nil => intro st st' h base; cases h; rfl
  | cons t ts ih =>
    intro st st' h base
    rw [List.foldlM_cons] at h ⊢
    obtain ⟨st1, h1, h2⟩ := Option.bind_eq_some_iff.1 h
    rw [step_base h1 base]
    exact ih h2 base

theorem parse_some {s : Str} {re : Re} : parse s = some re ↔
    ∃ ts f, Lexes s ts ∧ ts.foldlM step [{}] = some [f] ∧ f.finish = re := by
  unfold parse lex
  constructor
  · intro h
    obtain ⟨ts, h1, h2⟩ := Option.bind_eq_some_iff.1 h
    obtain ⟨fs, h3, h4⟩ := Option.bind_eq_some_iff.1 h2
    match fs, h4 with
    | [f], h4 => exact ⟨ts, f, h1, h3, Option.some.inj h4⟩
    | [], h4 => cases h4
    | _ :: _ :: _, h4 => cases h4
  · rintro ⟨ts, f, h1, h2, rfl⟩
    unfold Lexes at h1
    rw [h1]
    show (ts.foldlM step [{}]).bind _ = _
    rw [h2]
    rfl

/-- The tokens of a pattern in parentheses are read as one item. -/
theorem foldlM_group {ts : List Tok} {f : Frame} (h : ts.foldlM step [{}] = some [f]) (g : Frame) (outer : List Frame) :
    (Tok.opening :: ts ++ [Tok.closing]).foldlM step (g :: outer) =
      some ({ g with items := f.finish :: g.items } :: outer) := by
  have h1 := foldlM_base ts h (g :: outer)
  rw [List.foldlM_append, List.foldlM_cons]
  change (Option.bind ((ts.foldlM step ([({} : Frame)] ++ (g :: outer)))) _) = _
  rw [h1]
  rfl

/-! ### Alternatives joined into one pattern -/

theorem matches_altAll (before w after : Str) : ∀ (alts : List Re) (last : Re), Matches (altAll last alts) before w after ↔
    Matches last before w after ∨ ∃ a ∈ alts, Matches a before w after := by
  intro alts
  induction alts with
  | nil => intro last; simp [altAll]
  | cons a alts ih =>
    intro last
    rw [altAll, Matches, ih]
    simp only [List.mem_cons, exists_eq_or_imp]
    exact Or.comm

/-- A part of a pattern between bars: its text, its tokens, and the items it is made of, latest first. -/
structure Part where
  text : Str
  toks : List Tok
  items : List Re

/-- The part is read as said, and does not begin with a question mark. -/
structure Part.Ok (p : Part) : Prop where
  lexes : Lexes p.text p.toks
  head : p.text.head? ≠ some '?'
  run : ∀ alts, p.toks.foldlM step [{ alts := alts, items := [] }] = some [{ alts := alts, items := p.items }]

theorem intercalate_cons_cons {α : Type} (sep a b : List α) (l : List (List α)) :
    List.intercalate sep (a :: b :: l) = a ++ (sep ++ List.intercalate sep (b :: l)) := by
  simp [List.intercalate, List.intersperse]

theorem lexOne_bar (s : Str) : lexOne ('|' :: s) = some (.bar, s) := by
  rw [lexOne]
  simp

theorem lexes_join : ∀ (parts : List Part), (∀ p ∈ parts, p.Ok) →
    Lexes (List.intercalate ['|'] (parts.map (·.text))) (List.intercalate [Tok.bar] (parts.map (·.toks))) := by
  intro parts
  induction parts with
  | nil => intro _; exact Lexes.nil
  | cons p parts ih =>
    intro h
    cases parts with
    | nil => simpa [List.intercalate] using (h p (by simp)).lexes
    | cons q parts =>
      have := ih (fun x hx => h x (List.mem_cons_of_mem _ hx))
      rw [List.map_cons, List.map_cons, List.map_cons, List.map_cons, intercalate_cons_cons, intercalate_cons_cons]
      refine (h p (by simp)).lexes.append ?_ (by simp)
      exact Lexes.one (lexOne_bar _) (by simp) this

theorem foldlM_join : ∀ (parts : List Part), parts ≠ [] → (∀ p ∈ parts, p.Ok) → ∀ alts, ∃ f,
    (List.intercalate [Tok.bar] (parts.map (·.toks))).foldlM step [{ alts := alts, items := [] }] = some [f] ∧
    ∀ before w after, Matches f.finish before w after ↔
      (∃ a ∈ alts, Matches a before w after) ∨ ∃ p ∈ parts, Matches (catAll p.items) before w after := by
  intro parts
  induction parts with
  | nil => intro h; exact absurd rfl h
  | cons p parts ih =>
    intro _ h alts
    cases parts with
    | nil =>
      refine ⟨{ alts := alts, items := p.items }, ?_, ?_⟩
      · simpa [List.intercalate] using (h p (by simp)).run alts
      · intro before w after
        rw [Frame.finish, matches_altAll]
        simp only [List.mem_singleton, exists_eq_left]
        exact Or.comm
    | cons q parts =>
      obtain ⟨f, h1, h2⟩ := ih (by simp) (fun x hx => h x (List.mem_cons_of_mem _ hx)) (catAll p.items :: alts)
      refine ⟨f, ?_, ?_⟩
      · rw [List.map_cons, List.map_cons, intercalate_cons_cons, List.foldlM_append, (h p (by simp)).run alts]
        exact h1
      · intro before w after
        rw [h2]
        simp only [List.mem_cons, exists_eq_or_imp]
        constructor
        · rintro ((h | h) | h)
          · exact Or.inr (Or.inl h)
          · exact Or.inl h
          · exact Or.inr (Or.inr h)
        · rintro (h | h | h)
          · exact Or.inl (Or.inr h)
          · exact Or.inl (Or.inl h)
          · exact Or.inr h

theorem parse_join (parts : List Part) (hne : parts ≠ []) (h : ∀ p ∈ parts, p.Ok) :
    ∃ re, parse (List.intercalate ['|'] (parts.map (·.text))) = some re ∧
    ∀ before w after, Matches re before w after ↔ ∃ p ∈ parts, Matches (catAll p.items) before w after := by
  obtain ⟨f, h1, h2⟩ := foldlM_join parts hne h []
  refine ⟨f.finish, parse_some.2 ⟨_, f, lexes_join parts h, h1, rfl⟩, ?_⟩
  intro before w after
  rw [h2]
  simp

theorem lexOne_start (s : Str) : lexOne ('^' :: s) = some (.atom .start, s) := by
  rw [lexOne]; simp

theorem lexOne_stop (s : Str) : lexOne ('$' :: s) = some (.atom .stop, s) := by
  rw [lexOne]; simp

theorem lexOne_closing (s : Str) : lexOne (')' :: s) = some (.closing, s) := by
  rw [lexOne]; simp

theorem lexOne_group (s : Str) : lexOne ('(' :: '?' :: ':' :: s) = some (.opening, s) := by
  rw [lexOne]; simp [lexOpening, strip]

/-- `(?:p)`. -/
theorem group_ok {text : Str} {re : Re} (h : parse text = some re) :
    ∃ p : Part, p.Ok ∧ p.text = "(?:".toList ++ text ++ ")".toList ∧ p.items = [re] := by
  obtain ⟨ts, f, h1, h2, rfl⟩ := parse_some.1 h
  refine ⟨⟨"(?:".toList ++ text ++ ")".toList, Tok.opening :: ts ++ [Tok.closing], [f.finish]⟩, ⟨?_, ?_, ?_⟩, rfl, rfl⟩
  · have e : "(?:".toList ++ text ++ ")".toList = '(' :: '?' :: ':' :: (text ++ [')']) := by simp
    show Lexes ("(?:".toList ++ text ++ ")".toList) _
    rw [e]
    exact Lexes.one (lexOne_group _) (by simp)
      (h1.append (Lexes.one (lexOne_closing []) (by simp) Lexes.nil) (by simp))
  · show ("(?:".toList ++ text ++ ")".toList).head? ≠ _
    simp
  · intro alts
    exact foldlM_group h2 _ _

/-- `^(?:p)$`. -/
theorem anchored_ok {text : Str} {re : Re} (h : parse text = some re) :
    ∃ p : Part, p.Ok ∧ p.text = "^(?:".toList ++ text ++ ")$".toList ∧ p.items = [.stop, re, .start] := by
  obtain ⟨ts, f, h1, h2, rfl⟩ := parse_some.1 h
  refine ⟨⟨"^(?:".toList ++ text ++ ")$".toList, Tok.atom .start :: ((Tok.opening :: ts ++ [Tok.closing]) ++ [Tok.atom .stop]),
    [.stop, f.finish, .start]⟩, ⟨?_, ?_, ?_⟩, rfl, rfl⟩
  · have e : "^(?:".toList ++ text ++ ")$".toList = '^' :: '(' :: '?' :: ':' :: (text ++ [')', '$']) := by simp
    show Lexes ("^(?:".toList ++ text ++ ")$".toList) _
    rw [e]
    refine Lexes.one (lexOne_start _) (by simp) ?_
    have e2 : Tok.opening :: ts ++ [Tok.closing] ++ [Tok.atom .stop] = Tok.opening :: (ts ++ [Tok.closing, Tok.atom .stop]) := by
      simp
    rw [e2]
    exact Lexes.one (lexOne_group _) (by simp)
      (h1.append (Lexes.one (lexOne_closing _) (by simp) (Lexes.one (lexOne_stop []) (by simp) Lexes.nil)) (by simp))
  · show ("^(?:".toList ++ text ++ ")$".toList).head? ≠ _
    simp
  · intro alts
    rw [List.foldlM_cons]
    change Option.bind (step _ _) _ = _
    rw [step, Option.bind_some, List.foldlM_append, foldlM_group h2]
    rfl

theorem matches_anchored (re : Re) (before w after : Str) :
    Matches (catAll [.stop, re, .start]) before w after ↔ before = [] ∧ after = [] ∧ FullMatch re w := by
  simp only [catAll, Matches, FullMatch]
  constructor
  · rintro ⟨u, v, rfl, ⟨x, y, rfl, ⟨rfl, rfl⟩, h⟩, rfl, h3⟩
    have h3 : after = [] := by simpa using h3
    subst h3
    exact ⟨rfl, rfl, by simpa using h⟩
  · rintro ⟨rfl, rfl, h⟩
    exact ⟨w, [], by simp, ⟨[], w, by simp, ⟨rfl, rfl⟩, by simpa using h⟩, rfl, rfl⟩

/-- One part for each pattern. -/
theorem parts_exist {mk : Str → Str} {items : Re → List Re} (hmk : ∀ {text re}, parse text = some re →
    ∃ p : Part, p.Ok ∧ p.text = mk text ∧ p.items = items re) : ∀ (rs : List Regex), (∀ r ∈ rs, parse r.text = some r.re) →
    ∃ ps : List Part, (∀ p ∈ ps, p.Ok) ∧ ps.map (·.text) = rs.map (fun r => mk r.text) ∧
      ps.map (·.items) = rs.map (fun r => items r.re) := by
  intro rs
  induction rs with
  | nil => intro _; exact ⟨[], by simp, rfl, rfl⟩
  | cons r rs ih =>
    intro h
    obtain ⟨ps, h1, h2, h3⟩ := ih (fun x hx => h x (List.mem_cons_of_mem _ hx))
    obtain ⟨p, hp, hp1, hp2⟩ := hmk (h r (by simp))
    refine ⟨p :: ps, ?_, by simp [h2, hp1], by simp [h3, hp2]⟩
    intro q hq
    rcases List.mem_cons.1 hq with rfl | hq
    · exact hp
    · exact h1 q hq

theorem parse_joined {mk : Str → Str} {items : Re → List Re} (hmk : ∀ {text re}, parse text = some re →
    ∃ p : Part, p.Ok ∧ p.text = mk text ∧ p.items = items re) (rs : List Regex) (hne : rs ≠ [])
    (h : ∀ r ∈ rs, parse r.text = some r.re) :
    ∃ re, parse (List.intercalate ['|'] (rs.map fun r => mk r.text)) = some re ∧
    ∀ before w after, Matches re before w after ↔ ∃ r ∈ rs, Matches (catAll (items r.re)) before w after := by
  obtain ⟨ps, h1, h2, h3⟩ := parts_exist hmk rs h
  have hps : ps ≠ [] := by
    rintro rfl
    cases rs with
    | nil => exact hne rfl
    | cons r rs => cases h2
  obtain ⟨re, h4, h5⟩ := parse_join ps hps h1
  rw [h2] at h4
  refine ⟨re, h4, ?_⟩
  intro before w after
  rw [h5]
  constructor
  · rintro ⟨p, hp, hm⟩
    have : p.items ∈ rs.map (fun r => items r.re) := by rw [← h3]; exact List.mem_map_of_mem hp
    obtain ⟨r, hr, e⟩ := List.mem_map.1 this
    exact ⟨r, hr, by rw [e]; exact hm⟩
  · rintro ⟨r, hr, hm⟩
    have : items r.re ∈ ps.map (·.items) := by rw [h3]; exact List.mem_map_of_mem (f := fun r : Regex => items r.re) hr
    obtain ⟨p, hp, e⟩ := List.mem_map.1 this
    exact ⟨p, hp, by rw [e]; exact hm⟩

end Re

/-! ### Pattern files -/

theorem Regex.new_some {text : Str} {r : Regex} (h : Regex.new text = some r) : r.text = text ∧ Re.parse text = some r.re := by
  obtain ⟨re, h1, rfl⟩ := Option.map_eq_some_iff.1 h
  exact ⟨rfl, h1⟩

theorem unwrap_ok {α : Type} {o : Option α} {a : α} (h : unwrap o = .ok a) : o = some a := by
  cases o with
  | none => cases h
  | some b => cases h; rfl

theorem loadPattern_ok {name : Str} {r : Regex} (h : loadPattern name = .ok r) : Re.parse r.text = some r.re := by
  unfold loadPattern NamedPattern.regex at h
  split at h
  all_goals
    obtain ⟨e, h⟩ := Regex.new_some (unwrap_ok h)
    rw [e]; exact h

theorem loadPatterns_ok : ∀ {names : List Str} {rs : List Regex}, loadPatterns names = .ok rs →
    (∀ r ∈ rs, Re.parse r.text = some r.re) ∧ rs.length = names.length := by
  intro names
  induction names with
  | nil => intro rs h; cases h; simp
  | cons n names ih =>
    intro rs h
    rw [loadPatterns, List.mapM_cons] at h
    cases h1 : loadPattern n with
    | error e => rw [h1] at h; cases h
    | ok r =>
    cases h2 : loadPatterns names with
    | error e => rw [loadPatterns] at h2; rw [h1, h2] at h; cases h
    | ok rs' =>
    rw [loadPatterns] at h2
    rw [h1, h2] at h
    cases h
    obtain ⟨h3, h4⟩ := ih h2
    refine ⟨?_, by simp [h4]⟩
    intro x hx
    rcases List.mem_cons.1 hx with rfl | hx
    · exact loadPattern_ok h1
    · exact h3 x hx

theorem trim_id {c d : Char} {s : Str} (hc : isSpace c = false) (hd : isSpace d = false) : trim (c :: (s ++ [d])) = c :: (s ++ [d]) := by
  unfold trim
  rw [List.dropWhile_cons_of_neg (by simp [hc]), List.reverse_cons, List.reverse_append, List.reverse_singleton]
  rw [List.singleton_append, List.cons_append, List.dropWhile_cons_of_neg (by simp [hd])]
  simp

/-- The text of a combined pattern begins with `^` and ends with `$`. -/
theorem allowText_shape : ∀ (texts : List Str), texts ≠ [] → ∃ s,
    List.intercalate ['|'] (texts.map fun t => "^(?:".toList ++ t ++ ")$".toList) = '^' :: (s ++ ['$']) := by
  intro texts
  induction texts with
  | nil => intro h; exact absurd rfl h
  | cons t texts ih =>
    intro _
    cases texts with
    | nil => exact ⟨"(?:".toList ++ t ++ [')'], by simp [List.intercalate]⟩
    | cons u texts =>
      obtain ⟨s, hs⟩ := ih (by simp)
      refine ⟨"(?:".toList ++ t ++ ")$|^".toList ++ s, ?_⟩
      rw [List.map_cons, List.map_cons, Re.intercalate_cons_cons, ← List.map_cons (f := fun t => "^(?:".toList ++ t ++ ")$".toList), hs]
      simp

theorem mem_intercalate {α : Type} {sep : List α} {x : α} : ∀ {l : List (List α)}, x ∈ List.intercalate sep l →
    x ∈ sep ∨ ∃ a ∈ l, x ∈ a := by
  intro l
  induction l with
  | nil => intro h; simp [List.intercalate] at h
  | cons a l ih =>
    intro h
    cases l with
    | nil => exact Or.inr ⟨a, by simp, by simpa [List.intercalate] using h⟩
    | cons b l =>
      rw [Re.intercalate_cons_cons] at h
      rcases List.mem_append.1 h with h | h
      · exact Or.inr ⟨a, by simp, h⟩
      rcases List.mem_append.1 h with h | h
      · exact Or.inl h
      · rcases ih h with h | ⟨c, hc, hx⟩
        · exact Or.inl h
        · exact Or.inr ⟨c, List.mem_cons_of_mem _ hc, hx⟩

/-- A combined pattern whose parts have no line breaks is not changed by what `load_regex` does to it. -/
theorem allowText_kept (texts : List Str) (hne : texts ≠ []) (h : ∀ t ∈ texts, '\n' ∉ t ∧ '\r' ∉ t) :
    trim ((List.intercalate ['|'] (texts.map fun t => "^(?:".toList ++ t ++ ")$".toList)).filter
      fun c => !(c == '\n' || c == '\r')) = List.intercalate ['|'] (texts.map fun t => "^(?:".toList ++ t ++ ")$".toList) := by
  rw [List.filter_eq_self.2]
  · obtain ⟨s, hs⟩ := allowText_shape texts hne
    rw [hs]
    exact trim_id (by decide) (by decide)
  · intro c hc
    have : c ≠ '\n' ∧ c ≠ '\r' := by
      rcases mem_intercalate hc with hc | ⟨a, ha, hc⟩
      · rw [List.mem_singleton.1 hc]; decide
      · obtain ⟨t, ht, rfl⟩ := List.mem_map.1 ha
        obtain ⟨h1, h2⟩ := h t ht
        constructor
        · rintro rfl
          simp at hc
          exact h1 hc
        · rintro rfl
          simp at hc
          exact h2 hc
    simp [this.1, this.2]

end Tokengeex

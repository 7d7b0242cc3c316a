import Verif.Model.ExactRegex
import Verif.Spec.ExactRegex
import Verif.Props.CliHistory
/-
C83: the shipped allow pattern `data/exact.regex`.
-/
namespace Tokengeex
open Spec Cli

theorem fits_nil {s : Str} : Fits [] s ↔ s = [] := Iff.rfl

theorem fits_one {c : Char} {rest : List CharRun} {s : Str} :
    Fits (CharRun.one c :: rest) s ↔ ∃ v, s = c :: v ∧ Fits rest v := by
  rw [Fits]
  constructor
  · rintro ⟨u, v, rfl, h1, h2, h3, h4⟩
    have hl : u.length = 1 := Nat.le_antisymm (h2 1 rfl) h1
    obtain ⟨d, rfl⟩ := List.length_eq_one_iff.1 hl
    obtain ⟨x, hx, h5, h6⟩ := h3 d (by simp)
    rw [CharRun.one, List.mem_singleton] at hx
    subst hx
    rw [Char.le_antisymm h6 h5]
    exact ⟨v, rfl, h4⟩
  · rintro ⟨v, rfl, h⟩
    refine ⟨[c], v, rfl, Nat.le_refl _, ?_, ?_, h⟩
    · intro n hn
      cases hn
      exact Nat.le_refl _
    · intro d hd
      rw [List.mem_singleton] at hd
      subst hd
      exact ⟨(d, d), List.mem_singleton.2 rfl, Char.le_refl _, Char.le_refl _⟩

theorem fits_chars (w : Str) {rest : List CharRun} {s : Str} :
    Fits (w.map CharRun.one ++ rest) s ↔ ∃ v, s = w ++ v ∧ Fits rest v := by
  induction w generalizing s with
  | nil => simp
  | cons c w ih =>
    rw [List.map_cons, List.cons_append, fits_one]
    constructor
    · rintro ⟨v, rfl, h⟩
      obtain ⟨v', rfl, h'⟩ := ih.1 h
      exact ⟨v', rfl, h'⟩
    · rintro ⟨v, rfl, h⟩
      exact ⟨w ++ v, rfl, ih.2 ⟨v, rfl, h⟩⟩

theorem fits_space {rest : List CharRun} {s : Str} :
    Fits (CharRun.space? :: rest) s ↔ ∃ a ∈ [[], [' ']], ∃ v, s = a ++ v ∧ Fits rest v := by
  rw [Fits]
  constructor
  · rintro ⟨u, v, rfl, -, h2, h3, h4⟩
    have hl := h2 1 rfl
    cases u with
    | nil => exact ⟨[], by simp, v, rfl, h4⟩
    | cons d u =>
      cases u with
      | cons e u => simp at hl
      | nil =>
        obtain ⟨x, hx, h5, h6⟩ := h3 d (by simp)
        simp only [CharRun.space?, CharRun.space, List.mem_singleton] at hx
        subst hx
        rw [Char.le_antisymm h6 h5]
        exact ⟨[' '], by simp, v, rfl, h4⟩
  · rintro ⟨a, ha, v, rfl, h⟩
    refine ⟨a, v, rfl, Nat.zero_le _, ?_, ?_, h⟩
    · intro n hn
      cases hn
      revert a
      decide
    · intro c hc
      have : c = ' ' := by
        revert c a
        simp
      subst this
      exact ⟨(' ', ' '), List.mem_singleton.2 rfl, Char.le_refl _, Char.le_refl _⟩

theorem fits_many {chars : List (Char × Char)} {s : Str} :
    Fits [CharRun.many chars] s ↔ s ≠ [] ∧ ∀ c ∈ s, ∃ x ∈ chars, x.1 ≤ c ∧ c ≤ x.2 := by
  rw [Fits]
  constructor
  · rintro ⟨u, v, rfl, h1, -, h3, rfl⟩
    rw [List.append_nil]
    exact ⟨pos_length.1 h1, h3⟩
  · rintro ⟨h1, h2⟩
    exact ⟨s, [], by simp, pos_length.2 h1, (fun n hn => by cases hn), h2, rfl⟩

theorem fits_single {chars : List (Char × Char)} {rest : List CharRun} {s : Str} :
    Fits (CharRun.single chars :: rest) s ↔ ∃ c v, s = c :: v ∧ (∃ x ∈ chars, x.1 ≤ c ∧ c ≤ x.2) ∧ Fits rest v := by
  rw [Fits]
  constructor
  · rintro ⟨u, v, rfl, h1, h2, h3, h4⟩
    obtain ⟨d, rfl⟩ := List.length_eq_one_iff.1 (Nat.le_antisymm (h2 1 rfl) h1)
    exact ⟨d, v, rfl, h3 d (by simp), h4⟩
  · rintro ⟨c, v, rfl, h, h'⟩
    refine ⟨[c], v, rfl, Nat.le_refl _, fun n hn => by cases hn; exact Nat.le_refl _, ?_, h'⟩
    intro d hd
    rw [List.mem_singleton] at hd
    subst hd
    exact h

/-- The meaning of one name, from the table. -/
theorem named_meaning {name : String} {shapes : List (List CharRun)} (h : (name, shapes) ∈ patternMeaning) (s : Str) :
    NamedMatches name s ↔ ∃ runs ∈ shapes, Fits runs s := C68_meaning.2 _ h s

theorem exactNames_named : ∀ n ∈ exactNames, ∃ p ∈ NamedPattern.table, p.name = n := by decide +kernel

/-- **C83** The command documented for `data/exact.regex` writes the file that is shipped. -/
theorem C83_file : regexCmd exactNames = .ok (enc exactRegexFile.toList) := by decide +kernel

theorem namedMatches_space_punct (s : Str) : NamedMatches "space-punct-space" s ↔ ∃ c, AsciiPunct c ∧ Spaced [c] s := by
  rw [named_meaning (shapes := [[CharRun.space?, CharRun.single CharRun.punct, CharRun.space?]])
    (by simp [patternMeaning])]
  simp only [List.mem_singleton, exists_eq_left, fits_space, fits_single, fits_nil]
  constructor
  · rintro ⟨a, ha, v, rfl, c, v', rfl, ⟨x, hx, h⟩, b, hb, v'', rfl, rfl⟩
    refine ⟨c, ?_, a, ha, b, hb, by simp⟩
    simp only [CharRun.punct, List.mem_cons, List.not_mem_nil, or_false] at hx
    rcases hx with rfl | rfl | rfl | rfl
    · exact .inl h
    · exact .inr (.inl h)
    · exact .inr (.inr (.inl h))
    · exact .inr (.inr (.inr h))
  · rintro ⟨c, hc, a, ha, b, hb, rfl⟩
    refine ⟨a, ha, _, List.append_assoc _ _ _, c, b, rfl, ?_, b, hb, [], by simp, rfl⟩
    rcases hc with h | h | h | h
    · exact ⟨('!', '/'), by simp [CharRun.punct], h⟩
    · exact ⟨(':', '@'), by simp [CharRun.punct], h⟩
    · exact ⟨('[', '`'), by simp [CharRun.punct], h⟩
    · exact ⟨('{', '~'), by simp [CharRun.punct], h⟩

theorem namedMatches_operator (s : Str) :
    NamedMatches "space-operator-space" s ↔ ∃ w ∈ codeOperators, Spaced w.toList s := by
  rw [named_meaning (shapes := codeOperators.map fun op => [CharRun.space?] ++ CharRun.text op ++ [CharRun.space?])
    (by simp [patternMeaning, codeOperators])]
  simp only [List.mem_map, exists_exists_and_eq_and]
  refine exists_congr fun w => and_congr_right fun _ => ?_
  rw [List.append_assoc, List.singleton_append, fits_space]
  simp only [CharRun.text, fits_chars, fits_space, fits_nil]
  constructor
  · rintro ⟨a, ha, v, rfl, v', rfl, b, hb, v'', rfl, rfl⟩
    exact ⟨a, ha, b, hb, by simp⟩
  · rintro ⟨a, ha, b, hb, rfl⟩
    exact ⟨a, ha, _, List.append_assoc _ _ _, b, rfl, b, hb, [], by simp, rfl⟩

theorem namedMatches_contraction (s : Str) :
    NamedMatches "english-contraction" s ↔ ∃ w ∈ contractions, s = w.toList := by
  rw [named_meaning (shapes := contractions.map CharRun.text) (by simp [patternMeaning, contractions])]
  simp only [List.mem_map, exists_exists_and_eq_and]
  refine exists_congr fun w => and_congr_right fun _ => ?_
  have := fits_chars w.toList (rest := []) (s := s)
  rw [List.append_nil] at this
  rw [CharRun.text, this]
  simp [fits_nil]

theorem namedMatches_chinese (s : Str) : NamedMatches "chinese-word" s ↔ s ≠ [] ∧ ∀ c ∈ s, Chinese c := by
  rw [named_meaning (shapes := [[CharRun.many [('㐀', '䶿'), ('一', '鿿')]]]) (by simp [patternMeaning])]
  simp only [List.mem_singleton, exists_eq_left, fits_many]
  simp [Chinese]

/-- **C83** The shipped pattern admits exactly the strings of the specification. -/
theorem C83_admits (s : Str) : Admits (enc exactRegexFile.toList) s ↔ ExactString s := by
  obtain ⟨file, h1, h2⟩ := C68_command exactNames (by simp [exactNames]) exactNames_named
  rw [C83_file] at h1
  have e := Except.ok.inj h1
  clear h1
  subst e
  rw [h2]
  have key : (∃ n ∈ exactNames, ∃ p ∈ NamedPattern.table, p.name = n ∧ ∃ re, Re.parse p.text = some re ∧ FullMatch re s) ↔
      ∃ n ∈ ["any-char", "lowercase-word", "uppercase-word", "capitalized-word", "english-contraction", "chinese-word",
        "indent", "space-operator-space", "space-punct-space"], NamedMatches n s := by
    simp only [exactNames, List.mem_map, exists_exists_and_eq_and, NamedMatches]
  rw [key]
  obtain ⟨a1, a2, _, _, a5, a6, _, a8⟩ := C68_simple s
  simp only [List.mem_cons, List.not_mem_nil, or_false, exists_eq_or_imp, exists_eq_left, a1, a2, a5, a6, a8,
    namedMatches_contraction, namedMatches_chinese, namedMatches_operator, namedMatches_space_punct]
  rfl

theorem spaced_mem {w s : Str} (h : Spaced w s) : ∀ c ∈ s, c ∈ w ∨ c = ' ' := by
  obtain ⟨a, ha, b, hb, rfl⟩ := h
  intro c hc
  have hsp : ∀ x : Str, x ∈ [[], [' ']] → c ∈ x → c = ' ' := by
    intro x hx hcx
    simp only [List.mem_cons, List.not_mem_nil, or_false] at hx
    rcases hx with rfl | rfl
    · simp at hcx
    · simpa using hcx
  rcases List.mem_append.1 hc with hc | hc
  · rcases List.mem_append.1 hc with hc | hc
    · exact .inr (hsp a ha hc)
    · exact .inl hc
  · exact .inr (hsp b hb hc)

theorem operator_chars : ∀ w ∈ codeOperators, ∀ c ∈ w.toList, AsciiPunct c := by
  have h : ∀ w ∈ codeOperators, ∀ c ∈ w.toList, (('!' ≤ c ∧ c ≤ '/') ∨ (':' ≤ c ∧ c ≤ '@') ∨ ('[' ≤ c ∧ c ≤ '`') ∨
    ('{' ≤ c ∧ c ≤ '~')) := by decide +kernel
  exact h

/-- The kinds of strings, by the characters they contain. -/
theorem exact_kinds {s : Str} (h : ExactString s) :
    (∃ c, s = [c] ∧ c ≠ '\n') ∨ (∀ c ∈ s, AsciiLower c) ∨ (∀ c ∈ s, AsciiUpper c) ∨
    (∃ c w, s = c :: w ∧ AsciiUpper c ∧ w ≠ [] ∧ ∀ d ∈ w, AsciiLower d) ∨ (∃ w ∈ contractions, s = w.toList) ∨
    (∀ c ∈ s, Chinese c) ∨ (∀ c ∈ s, AsciiPunct c ∨ c = ' ' ∨ c = '\t') := by
  rcases h with h | h | h | h | h | h | h | ⟨w, hw, h⟩ | ⟨c, hc, h⟩
  · exact .inl h
  · exact .inr (.inl h.2)
  · exact .inr (.inr (.inl h.2))
  · exact .inr (.inr (.inr (.inl h)))
  · exact .inr (.inr (.inr (.inr (.inl h))))
  · exact .inr (.inr (.inr (.inr (.inr (.inl h.2)))))
  · refine .inr (.inr (.inr (.inr (.inr (.inr ?_)))))
    rcases h.2 with h | h
    · exact fun c hc => .inr (.inl (h c hc))
    · exact fun c hc => .inr (.inr (h c hc))
  · refine .inr (.inr (.inr (.inr (.inr (.inr ?_)))))
    intro c hc
    rcases spaced_mem h c hc with hc | hc
    · exact .inl (operator_chars w hw c hc)
    · exact .inr (.inl hc)
  · refine .inr (.inr (.inr (.inr (.inr (.inr ?_)))))
    intro d hd
    rcases spaced_mem h d hd with hd | hd
    · rw [List.mem_singleton] at hd
      subst hd
      exact .inl hc
    · exact .inr (.inl hd)

theorem char_le_nat {a b : Char} : a ≤ b ↔ a.toNat ≤ b.toNat := Iff.rfl

/-- The classes are disjoint. -/
theorem classes_disjoint (c : Char) :
    (AsciiLower c → ¬ AsciiUpper c ∧ ¬ AsciiDigit c ∧ ¬ AsciiPunct c ∧ ¬ Chinese c ∧ c ≠ ' ' ∧ c ≠ '\t' ∧ c ≠ '\n') ∧
    (AsciiUpper c → ¬ AsciiDigit c ∧ ¬ AsciiPunct c ∧ ¬ Chinese c ∧ c ≠ ' ' ∧ c ≠ '\t' ∧ c ≠ '\n') ∧
    (AsciiDigit c → ¬ AsciiPunct c ∧ ¬ Chinese c ∧ c ≠ ' ' ∧ c ≠ '\t') ∧
    (AsciiPunct c → ¬ Chinese c ∧ c ≠ ' ' ∧ c ≠ '\t' ∧ c ≠ '\n') ∧
    (Chinese c → c ≠ ' ' ∧ c ≠ '\n') := by
  have e : ∀ d : Char, c = d ↔ c.toNat = d.toNat := fun d => ⟨congrArg _, fun h => Char.ext (UInt32.toNat_inj.1 h)⟩
  simp only [AsciiLower, AsciiUpper, AsciiDigit, AsciiPunct, Chinese, char_le_nat, ne_eq, e,
    show 'a'.toNat = 97 from rfl, show 'z'.toNat = 122 from rfl, show 'A'.toNat = 65 from rfl, show 'Z'.toNat = 90 from rfl,
    show '0'.toNat = 48 from rfl, show '9'.toNat = 57 from rfl, show '!'.toNat = 33 from rfl, show '/'.toNat = 47 from rfl,
    show ':'.toNat = 58 from rfl, show '@'.toNat = 64 from rfl, show '['.toNat = 91 from rfl, show '`'.toNat = 96 from rfl,
    show '{'.toNat = 123 from rfl, show '~'.toNat = 126 from rfl, show '㐀'.toNat = 0x3400 from rfl,
    show '䶿'.toNat = 0x4DBF from rfl, show '一'.toNat = 0x4E00 from rfl, show '鿿'.toNat = 0x9FFF from rfl,
    show ' '.toNat = 32 from rfl, show '\t'.toNat = 9 from rfl, show '\n'.toNat = 10 from rfl]
  refine ⟨?_, ?_, ?_, ?_, ?_⟩ <;> intro h <;> omega

theorem contraction_chars : ∀ w ∈ contractions, ∀ c ∈ w.toList, c = '\'' ∨ AsciiLower c := by
  have h : ∀ w ∈ contractions, ∀ c ∈ w.toList, c = '\'' ∨ ('a' ≤ c ∧ c ≤ 'z') := by decide +kernel
  exact h

/-- **C83** What the README promises of the pattern "exact", for every string it admits: a digit stands alone; upper and lower
case are mixed only in capitalised words; letters and punctuation are mixed only in English contractions; letters and spaces,
or line breaks and anything, are never mixed. -/
theorem C83_promises (s : Str) (h : Admits (enc exactRegexFile.toList) s) :
    ((∃ c ∈ s, AsciiDigit c) → s.length = 1) ∧
    ((∃ c ∈ s, AsciiUpper c) → (∃ c ∈ s, AsciiLower c) → ∃ c w, s = c :: w ∧ AsciiUpper c ∧ w ≠ [] ∧ ∀ d ∈ w, AsciiLower d) ∧
    ((∃ c ∈ s, AsciiUpper c ∨ AsciiLower c) → (∃ c ∈ s, AsciiPunct c) → ∃ w ∈ contractions, s = w.toList) ∧
    ((∃ c ∈ s, AsciiUpper c ∨ AsciiLower c) → ' ' ∉ s ∧ '\t' ∉ s) ∧ '\n' ∉ s := by
  have q : ∀ c : Char, c = '\'' → AsciiPunct c ∧ c ≠ ' ' ∧ c ≠ '\t' ∧ c ≠ '\n' := by
    rintro c rfl
    refine ⟨.inl ⟨by decide, by decide⟩, by decide, by decide, by decide⟩
  have d := classes_disjoint
  rcases exact_kinds ((C83_admits s).1 h) with ⟨c, rfl, hc⟩ | h | h | ⟨c, w, rfl, hc, hw, h⟩ | ⟨w, hw, rfl⟩ | h | h
  · simp only [List.mem_singleton, exists_eq_left]
    refine ⟨fun _ => rfl, fun h1 h2 => absurd h1 ((d c).1 h2).1, ?_, ?_, fun h => hc h.symm⟩
    · rintro (h1 | h1) h2
      · exact absurd h2 ((d c).2.1 h1).2.1
      · exact absurd h2 ((d c).1 h1).2.2.1
    · rintro (h1 | h1)
      · exact ⟨fun h => ((d c).2.1 h1).2.2.2.1 h.symm, fun h => ((d c).2.1 h1).2.2.2.2.1 h.symm⟩
      · exact ⟨fun h => ((d c).1 h1).2.2.2.2.1 h.symm, fun h => ((d c).1 h1).2.2.2.2.2.1 h.symm⟩
  · refine ⟨?_, ?_, ?_, fun _ => ⟨?_, ?_⟩, ?_⟩
    · rintro ⟨c, hc, h1⟩
      exact absurd h1 ((d c).1 (h c hc)).2.1
    · rintro ⟨c, hc, h1⟩
      exact absurd h1 ((d c).1 (h c hc)).1
    · rintro _ ⟨c, hc, h1⟩
      exact absurd h1 ((d c).1 (h c hc)).2.2.1
    · exact fun hm => ((d _).1 (h _ hm)).2.2.2.2.1 rfl
    · exact fun hm => ((d _).1 (h _ hm)).2.2.2.2.2.1 rfl
    · exact fun hm => ((d _).1 (h _ hm)).2.2.2.2.2.2 rfl
  · refine ⟨?_, ?_, ?_, fun _ => ⟨?_, ?_⟩, ?_⟩
    · rintro ⟨c, hc, h1⟩
      exact absurd h1 ((d c).2.1 (h c hc)).1
    · rintro _ ⟨c, hc, h1⟩
      exact absurd (h c hc) ((d c).1 h1).1
    · rintro _ ⟨c, hc, h1⟩
      exact absurd h1 ((d c).2.1 (h c hc)).2.1
    · exact fun hm => ((d _).2.1 (h _ hm)).2.2.2.1 rfl
    · exact fun hm => ((d _).2.1 (h _ hm)).2.2.2.2.1 rfl
    · exact fun hm => ((d _).2.1 (h _ hm)).2.2.2.2.2 rfl
  · have hm : ∀ x ∈ c :: w, AsciiUpper x ∨ AsciiLower x := by
      intro x hx
      rcases List.mem_cons.1 hx with rfl | hx
      · exact .inl hc
      · exact .inr (h x hx)
    have not : ∀ x ∈ c :: w, ¬ AsciiDigit x ∧ ¬ AsciiPunct x ∧ x ≠ ' ' ∧ x ≠ '\t' ∧ x ≠ '\n' := by
      intro x hx
      rcases hm x hx with h1 | h1
      · have := (d x).2.1 h1
        exact ⟨this.1, this.2.1, this.2.2.2⟩
      · have := (d x).1 h1
        exact ⟨this.2.1, this.2.2.1, this.2.2.2.2⟩
    refine ⟨?_, fun _ _ => ⟨c, w, rfl, hc, hw, h⟩, ?_, fun _ => ⟨fun hx => (not _ hx).2.2.1 rfl, fun hx => (not _ hx).2.2.2.1 rfl⟩,
      fun hx => (not _ hx).2.2.2.2 rfl⟩
    · rintro ⟨x, hx, h1⟩
      exact absurd h1 (not x hx).1
    · rintro _ ⟨x, hx, h1⟩
      exact absurd h1 (not x hx).2.1
  · have hm := contraction_chars w hw
    have not : ∀ x ∈ w.toList, ¬ AsciiDigit x ∧ ¬ AsciiUpper x ∧ x ≠ ' ' ∧ x ≠ '\t' ∧ x ≠ '\n' := by
      intro x hx
      rcases hm x hx with h1 | h1
      · have h2 := q x h1
        exact ⟨fun h3 => ((d x).2.2.1 h3).1 h2.1, fun h3 => ((d x).2.1 h3).2.1 h2.1, h2.2⟩
      · have h2 := (d x).1 h1
        exact ⟨h2.2.1, h2.1, h2.2.2.2.2⟩
    refine ⟨?_, ?_, fun _ _ => ⟨w, hw, rfl⟩, fun _ => ⟨fun hx => (not _ hx).2.2.1 rfl, fun hx => (not _ hx).2.2.2.1 rfl⟩,
      fun hx => (not _ hx).2.2.2.2 rfl⟩
    · rintro ⟨x, hx, h1⟩
      exact absurd h1 (not x hx).1
    · rintro ⟨x, hx, h1⟩
      exact absurd h1 (not x hx).2.1
  · refine ⟨?_, ?_, ?_, ?_, ?_⟩
    · rintro ⟨c, hc, h1⟩
      exact absurd (h c hc) ((d c).2.2.1 h1).2.1
    · rintro ⟨c, hc, h1⟩
      exact absurd (h c hc) ((d c).2.1 h1).2.2.1
    · rintro _ ⟨c, hc, h1⟩
      exact absurd (h c hc) ((d c).2.2.2.1 h1).1
    · rintro ⟨c, hc, h1 | h1⟩
      · exact absurd (h c hc) ((d c).2.1 h1).2.2.1
      · exact absurd (h c hc) ((d c).1 h1).2.2.2.1
    · exact fun hm => ((d _).2.2.2.2 (h _ hm)).2 rfl
  · refine ⟨?_, ?_, ?_, ?_, ?_⟩
    · rintro ⟨c, hc, h1⟩
      have := (d c).2.2.1 h1
      rcases h c hc with h2 | h2 | h2
      · exact absurd h2 this.1
      · exact absurd h2 this.2.2.1
      · exact absurd h2 this.2.2.2
    · rintro ⟨c, hc, h1⟩
      have := (d c).2.1 h1
      rcases h c hc with h2 | h2 | h2
      · exact absurd h2 this.2.1
      · exact absurd h2 this.2.2.2.1
      · exact absurd h2 this.2.2.2.2.1
    · rintro ⟨c, hc, h1 | h1⟩
      · have := (d c).2.1 h1
        rcases h c hc with h2 | h2 | h2
        · exact absurd h2 this.2.1
        · exact absurd h2 this.2.2.2.1
        · exact absurd h2 this.2.2.2.2.1
      · have := (d c).1 h1
        rcases h c hc with h2 | h2 | h2
        · exact absurd h2 this.2.2.1
        · exact absurd h2 this.2.2.2.2.1
        · exact absurd h2 this.2.2.2.2.2.1
    · rintro ⟨c, hc, h1 | h1⟩
      · have := (d c).2.1 h1
        rcases h c hc with h2 | h2 | h2
        · exact absurd h2 this.2.1
        · exact absurd h2 this.2.2.2.1
        · exact absurd h2 this.2.2.2.2.1
      · have := (d c).1 h1
        rcases h c hc with h2 | h2 | h2
        · exact absurd h2 this.2.2.1
        · exact absurd h2 this.2.2.2.2.1
        · exact absurd h2 this.2.2.2.2.2.1
    · intro hm
      rcases h _ hm with h2 | h2 | h2
      · exact ((d _).2.2.2.1 h2).2.2.2 rfl
      · exact absurd h2 (by decide)
      · exact absurd h2 (by decide)

/-- **C83** The README says of the pattern "fine" that words may have a space before them; but the command it gives for it is the
one for "exact", and what that writes admits no word with a space before it. -/
theorem C83_fine_false : regexCmd fineNames = regexCmd exactNames ∧
    ∀ w : Str, (∀ c ∈ w, AsciiUpper c ∨ AsciiLower c) → w ≠ [] → ∀ file, regexCmd fineNames = .ok file →
      ¬ Admits file (' ' :: w) := by
  refine ⟨rfl, ?_⟩
  intro w hw hne file hf hadm
  have e : fineNames = exactNames := rfl
  rw [e, C83_file] at hf
  have e' := Except.ok.inj hf
  clear hf
  subst e'
  obtain ⟨c, w', rfl⟩ := List.exists_cons_of_ne_nil hne
  exact ((C83_promises _ hadm).2.2.2.1 ⟨c, by simp, hw c (by simp)⟩).1 (by simp)

variable {F : Type} [TrainOps F] [Mul F]

/-- **C83** A vocabulary generated with the shipped pattern: every token of the file written is a single byte, an added token, a
suggested token, or a string of the pattern of at most `max_token_length` bytes. -/
theorem C83_generate (env : Env F) (laws : EnvLaws env) (fs fs' : Files) (a : GenerateArgs F) (allow : Str)
    (ha : a.allow = some allow) (hfile : fs allow = some (enc exactRegexFile.toList)) (hgen : Runs env (.generate a) fs fs')
    (u : Tokenizer F) (hu : fromFile env.numbers fs' a.output = .ok u) :
    ∃ added suggested, StringsFiles env.numbers fs a.added added ∧ StringsFiles env.numbers fs a.suggested suggested ∧
      ∀ t ∈ u.model.vocab, t.value.length = 1 ∨ ∃ s, enc s = t.value ∧ (s ∈ added ∨ s ∈ suggested ∨
        (t.value.length ≤ a.maxTokenLength ∧ ExactString s)) := by
  obtain ⟨contents, hg, rfl⟩ := hgen
  obtain ⟨vocab, ps, added, suggested, allow', _, h2, h3, h4, _, _, _, h8, _, h10⟩ := C71_generate env laws a _ contents hg
  refine ⟨added, suggested, h2, h3, ?_⟩
  obtain ⟨_, _, hall⟩ := (h10 _ a.output write_self).2 u hu
  intro t ht
  obtain ⟨t₀, ht₀, hr⟩ : ∃ t₀ ∈ vocab, Reloaded env.numbers t₀ t := by
    obtain ⟨i, hi⟩ := List.mem_iff_getElem?.1 ht
    obtain ⟨t₀, h11, h12⟩ := forall₂_right hall hi
    exact ⟨t₀, List.mem_of_getElem? h11, h12⟩
  rw [hr.1]
  rcases h8 t₀ ht₀ with h | ⟨s, e, h⟩
  · exact .inl h
  · refine .inr ⟨s, e, ?_⟩
    rcases h with h | h | ⟨h, h'⟩
    · exact .inl h
    · exact .inr (.inl h)
    · refine .inr (.inr ⟨h, (C83_admits s).1 ?_⟩)
      rw [ha] at h4
      simp only [Cli.optional, regexFile, hfile] at h4
      cases hre : loadRegex (enc exactRegexFile.toList) with
      | error e =>
        have h4' : (Except.error e : Res (Option Regex)) = .ok allow' := by
          rw [← h4]
          simp only [unwrap, bind, Except.bind, hre]
          rfl
        cases h4'
      | ok re =>
        have h4' : (Except.ok (some re) : Res (Option Regex)) = .ok allow' := by
          rw [← h4]
          simp only [unwrap, bind, Except.bind, hre]
          rfl
        cases h4'
        exact ⟨re, hre, h' re rfl⟩

/-! ### Non-vacuity -/

example : Admits (enc exactRegexFile.toList) "Hello".toList ∧ ¬ Admits (enc exactRegexFile.toList) "12".toList ∧
    Admits (enc exactRegexFile.toList) " != ".toList ∧ Admits (enc exactRegexFile.toList) "'re".toList := by
  refine ⟨(C83_admits _).2 ?_, fun h => ?_, (C83_admits _).2 ?_, (C83_admits _).2 ?_⟩
  · refine .inr (.inr (.inr (.inl ⟨'H', "ello".toList, rfl, ⟨by decide, by decide⟩, by decide, ?_⟩)))
    have : ∀ d ∈ "ello".toList, 'a' ≤ d ∧ d ≤ 'z' := by decide
    exact this
  · have := (C83_promises _ h).1 ⟨'1', by decide, by decide, by decide⟩
    revert this
    decide
  · exact .inr (.inr (.inr (.inr (.inr (.inr (.inr (.inl ⟨"!=", by decide, [' '], by decide, [' '], by decide, by decide⟩)))))))
  · exact .inr (.inr (.inr (.inr (.inl ⟨"'re", by decide, rfl⟩))))
/-- Letters and punctuation are mixed in a contraction. -/
example : (∃ c ∈ "'re".toList, AsciiUpper c ∨ AsciiLower c) ∧ ∃ c ∈ "'re".toList, AsciiPunct c :=
  ⟨⟨'r', by decide, .inr ⟨by decide, by decide⟩⟩, ⟨'\'', by decide, .inl ⟨by decide, by decide⟩⟩⟩

end Tokengeex

import Verif.Proofs.PatternText
import Verif.Proofs.ClassText
import Verif.Proofs.Regex
/-
The syntax of patterns (C105).
-/
namespace Tokengeex
open Spec

/-- **C105** (every pattern) Whatever is to be matched can be written as a pattern in one way that is read back exactly:
classes of any characters and ranges, sequences, alternatives and repetitions nested to any depth. -/
theorem C105_write (re : Re) (h : Writable re) : Regex.new (write re) = some ⟨write re, re⟩ := by
  rw [Regex.new, Re.parse_write re h]
  rfl

/-- Two to three times, letters or a hyphen or a caret, then the end; or no digit. -/
example : Writable (.alt (.cat (.rep (.cls false [(97, 122), (45, 45), (94, 94)]) 2 (some 3)) .stop) (.cls true [(48, 57)])) ∧
    write (.alt (.cat (.rep (.cls false [(97, 122), (45, 45), (94, 94)]) 2 (some 3)) .stop) (.cls true [(48, 57)])) =
      "(?:(?:(?:[a-z\\-\\^]){2,3})(?:$))|(?:[^0-9])".toList := by
  refine ⟨⟨⟨⟨⟨by simp, ?_⟩, ?_⟩, trivial⟩, by simp, ?_⟩, by decide +kernel⟩
  · intro r hr
    simp only [List.mem_cons, List.not_mem_nil, or_false] at hr
    rcases hr with rfl | rfl | rfl
    · exact ⟨'a', 'z', by decide, rfl⟩
    · exact ⟨'-', '-', by decide, rfl⟩
    · exact ⟨'^', '^', by decide, rfl⟩
  · rintro k ⟨⟩; decide
  · intro r hr
    rw [List.mem_singleton] at hr
    exact ⟨'0', '9', by decide, hr⟩

/-- **C105** (composition) For any two valid patterns: a group of the first is the first; two groups in a row match a text that
the first and then the second matches; a bar between them, with or without groups, matches what one of them matches; and a
group with a repetition matches what the first matches in a row as often as it says, with or without a question mark. -/
theorem C105_compose (a b : Regex) (ha : Regex.new a.text = some a) (hb : Regex.new b.text = some b) :
    (∃ r, Regex.new (group a.text) = some r ∧ r.re = a.re) ∧
    (∃ r, Regex.new (group a.text ++ group b.text) = some r ∧ r.re = .cat a.re b.re) ∧
    (∃ r, Regex.new (group a.text ++ '|' :: group b.text) = some r ∧ r.re = .alt a.re b.re) ∧
    (∃ r, Regex.new (a.text ++ '|' :: b.text) = some r ∧
      ∀ before w after, Matches r.re before w after ↔ Matches a.re before w after ∨ Matches b.re before w after) ∧
    ∀ q m n, Quantifier q m n →
      (∃ r, Regex.new (group a.text ++ q) = some r ∧ r.re = .rep a.re m n) ∧
      ∃ r, Regex.new (group a.text ++ q ++ ['?']) = some r ∧ r.re = .rep a.re m n := by
  have hp : ∀ {x : Regex}, Regex.new x.text = some x → Re.parse x.text = some x.re := fun h => (Regex.new_some h).2
  have mk : ∀ {s : Str} {x : Re}, Re.parse s = some x → ∃ r, Regex.new s = some r ∧ r.re = x := by
    intro s x h
    exact ⟨⟨s, x⟩, by rw [Regex.new, h]; rfl, rfl⟩
  refine ⟨mk (Re.parse_group (hp ha)), mk (Re.parse_cat (hp ha) (hp hb)), mk (Re.parse_groups_alt (hp ha) (hp hb)), ?_, ?_⟩
  · obtain ⟨re, h1, h2⟩ := Re.parse_bar (hp ha) (hp hb)
    obtain ⟨r, h3, rfl⟩ := mk h1
    exact ⟨r, h3, h2⟩
  · intro q m n hq
    exact ⟨mk (Re.parse_rep (hp ha) hq).1, mk (Re.parse_rep (hp ha) hq).2⟩

example : ∃ a b : Regex, a.text = "x|y".toList ∧ Regex.new a.text = some a ∧ b.text = "z+".toList ∧ Regex.new b.text = some b :=
  ⟨⟨"x|y".toList, .alt (Re.lit 'x') (Re.lit 'y')⟩, ⟨"z+".toList, .rep (Re.lit 'z') 1 none⟩, rfl, by decide +kernel, rfl, by decide +kernel⟩

/-- **C105** (rejection) A range whose ends are in the wrong order is not valid, nor is a repetition whose maximum is less than its
minimum, nor a valid pattern with a parenthesis too many on either side. -/
theorem C105_reject :
    (∀ (c d : Char) (negated : Bool), d < c →
      Regex.new ('[' :: ((if negated then ['^'] else []) ++ (writeChar c ++ '-' :: writeChar d) ++ [']'])) = none) ∧
    ∀ (a : Regex), Regex.new a.text = some a →
      (∀ m n, n < m → Regex.new (group a.text ++ writeCount m (some n)) = none) ∧
      Regex.new ("(?:".toList ++ a.text) = none ∧ Regex.new (a.text ++ [')']) = none := by
  have none_of : ∀ {s : Str}, Re.parse s = none → Regex.new s = none := by
    intro s h
    rw [Regex.new, h]
    rfl
  refine ⟨fun c d negated h => none_of (Re.parse_bad_range h negated), fun a ha => ?_⟩
  have hp := (Regex.new_some ha).2
  exact ⟨fun m n h => none_of (Re.parse_bad_count hp h), none_of (Re.parse_open hp).1, none_of (Re.parse_open hp).2⟩

/-- **C105** (characters by number) A backslash, `x` and two hexadecimal digits, or `u` and four of them, in lower or upper case,
match the character of that number and nothing else; four digits that are no character's number are not valid.  A dot
matches any one character but a newline. -/
theorem C105_number (upper : Bool) :
    (∀ c : Char, c.toNat < 256 → ∃ r, Regex.new ('\\' :: 'x' :: hexDigits upper 2 c.toNat) = some r ∧ ∀ w, FullMatch r.re w ↔ w = [c]) ∧
    (∀ c : Char, c.toNat < 65536 → ∃ r, Regex.new ('\\' :: 'u' :: hexDigits upper 4 c.toNat) = some r ∧ ∀ w, FullMatch r.re w ↔ w = [c]) ∧
    (∀ n, n < 65536 → (∀ c : Char, c.toNat ≠ n) → Regex.new ('\\' :: 'u' :: hexDigits upper 4 n) = none) ∧
    ∃ r, Regex.new ['.'] = some r ∧ ∀ w, FullMatch r.re w ↔ ∃ c, w = [c] ∧ c ≠ '\n' := by
  have one : ∀ (c : Char) (w : Str), FullMatch (.cls false [(c.toNat, c.toNat)]) w ↔ w = [c] := by
    intro c w
    unfold FullMatch
    simp only [Matches, List.mem_singleton, exists_eq_left, iff_true]
    constructor
    · rintro ⟨d, rfl, h1, h2⟩
      have : d = c := Char.toNat_inj.1 (by omega)
      rw [this]
    · rintro rfl
      exact ⟨c, rfl, Nat.le_refl _, Nat.le_refl _⟩
  refine ⟨?_, ?_, ?_, ?_⟩
  · intro c h
    exact ⟨⟨_, _⟩, by rw [Regex.new, Re.parse_hex upper h]; rfl, one c⟩
  · intro c h
    refine ⟨⟨'\\' :: 'u' :: hexDigits upper 4 c.toNat, _⟩, ?_, one c⟩
    rw [Regex.new, Re.parse_hex4 upper h, if_pos (show c.toNat.isValidChar from c.valid)]
    rfl
  · intro n h hn
    rw [Regex.new, Re.parse_hex4 upper h, if_neg]
    · rfl
    · intro hv
      exact hn (Char.ofNat n) (by unfold Char.ofNat; rw [dif_pos hv]; rfl)
  · refine ⟨⟨['.'], .cls true [(10, 10)]⟩, by decide, ?_⟩
    intro w
    unfold FullMatch
    simp only [Matches, List.mem_singleton, exists_eq_left, Bool.true_eq_false, iff_false]
    constructor
    · rintro ⟨c, rfl, h⟩
      refine ⟨c, rfl, ?_⟩
      rintro rfl
      exact h (by decide)
    · rintro ⟨c, rfl, h⟩
      refine ⟨c, rfl, fun h' => h (Char.toNat_inj.1 ?_)⟩
      show c.toNat = 10
      omega

example : '\\' :: 'x' :: hexDigits true 2 'Z'.toNat = "\\x5A".toList ∧ '\\' :: 'u' :: hexDigits false 4 'é'.toNat = "\\u00e9".toList ∧
    ∀ c : Char, c.toNat ≠ 0xD800 := by
  refine ⟨by decide, by decide, fun c h => ?_⟩
  have := c.valid
  rcases this with h' | h'
  · have : c.toNat < 0xD800 := h'
    omega
  · have : 0xDFFF < c.toNat := h'.1
    omega

/-- **C105** (classes) A class of any members, with or without `^` at the beginning, a bracket that is a member after it, and a
hyphen that is a member at the end, is valid and matches one character: any that it names, or with `^` any other. -/
theorem C105_class (negated bracket hyphen : Bool) (members : List Member) (hm : ∀ c d, .range c d ∈ members → c ≤ d)
    (hne : bracket = true ∨ members ≠ [] ∨ hyphen = true) :
    ∃ r, Regex.new (classText negated bracket members hyphen) = some r ∧ ∀ w, FullMatch r.re w ↔ ∃ x, w = [x] ∧
      ((bracket = true ∧ x = ']' ∨ (∃ m ∈ members, m.Has x) ∨ hyphen = true ∧ x = '-') ↔ negated = false) := by
  refine ⟨⟨_, _⟩, by rw [Regex.new, Re.parse_class negated bracket hyphen members hm hne]; rfl, ?_⟩
  have one : ∀ (b : Bool) (x y : Char), (∃ r ∈ (if b then [(y.toNat, y.toNat)] else []), r.1 ≤ x.toNat ∧ x.toNat ≤ r.2) ↔
      b = true ∧ x = y := by
    intro b x y
    cases b with
    | false => simp
    | true =>
      simp only [if_true, List.mem_singleton, exists_eq_left, true_and]
      constructor
      · intro h; exact Char.toNat_inj.1 (by omega)
      · rintro rfl; exact ⟨Nat.le_refl _, Nat.le_refl _⟩
  have key : ∀ x : Char, (∃ r ∈ Re.classRanges bracket members hyphen, r.1 ≤ x.toNat ∧ x.toNat ≤ r.2) ↔
      (bracket = true ∧ x = ']' ∨ (∃ m ∈ members, m.Has x) ∨ hyphen = true ∧ x = '-') := by
    intro x
    unfold Re.classRanges
    simp only [List.mem_append, or_and_right, exists_or, List.mem_flatMap]
    rw [show (93 : Nat) = ']'.toNat from rfl, show (45 : Nat) = '-'.toNat from rfl, one, one, or_assoc]
    refine or_congr_right (or_congr_left ?_)
    constructor
    · rintro ⟨r, ⟨m, h1, h2⟩, h3⟩; exact ⟨m, h1, (Re.mem_member m x).1 ⟨r, h2, h3⟩⟩
    · rintro ⟨m, h1, h2⟩
      obtain ⟨r, h3, h4⟩ := (Re.mem_member m x).2 h2
      exact ⟨r, ⟨m, h1, h3⟩, h4⟩
  intro w
  unfold FullMatch
  simp only [Matches, key]

/-- `[^]a-z\s[:punct:]-]` -/
example : classText true true [.range 'a' 'z', .space, .punctuation] true = "[^]a-z\\s[:punct:]-]".toList ∧
    Member.Has .space ' ' ∧ Member.Has .punctuation '&' ∧ Member.Has (.range 'a' 'z') 'k' := by
  refine ⟨by decide, ?_, ?_, ?_⟩
  · exact .inl (by decide)
  · show '&' ∈ _
    decide
  · exact ⟨by decide, by decide⟩

/-- **C105** (escapes) White space, a newline, a tab and a carriage return are written outside of classes as inside. -/
theorem C105_escape (m : Member) (hm : m = .space ∨ m = .newline ∨ m = .tab ∨ m = .return) :
    ∃ r, Regex.new m.text = some r ∧ ∀ w, FullMatch r.re w ↔ ∃ x, w = [x] ∧ m.Has x := by
  have hp : Re.parse m.text = some (.cls false (Re.memberRanges m)) := by
    refine Re.parse_atom ?_ ?_ <;> rcases hm with rfl | rfl | rfl | rfl <;> simp [Member.text] <;> rfl
  refine ⟨⟨_, _⟩, by rw [Regex.new, hp]; rfl, ?_⟩
  intro w
  unfold FullMatch
  simp only [Matches, Re.mem_member, iff_true]

end Tokengeex

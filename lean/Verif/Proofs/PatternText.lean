import Verif.Proofs.RegexText
import Verif.Proofs.IntNumbers
import Verif.Spec.PatternText
/-
Reading patterns that have been written down.
-/
namespace Tokengeex
open Spec
namespace Re

theorem meta_eq (c : Char) : (c ∈ ['\\', '.', '+', '*', '?', '(', ')', '|', '[', ']', '{', '}', '^', '$', '#', '&', '-', '~']) ↔
    isMeta c = true := by
  unfold isMeta
  simp

theorem writeChar_head (c : Char) : ∃ d s, writeChar c = d :: s ∧ (d = '\\' ∨ isMeta d = false) := by
  unfold writeChar
  by_cases h : c ∈ ['\\', '.', '+', '*', '?', '(', ')', '|', '[', ']', '{', '}', '^', '$', '#', '&', '-', '~']
  · rw [if_pos h]
    exact ⟨_, _, rfl, .inl rfl⟩
  · rw [if_neg h]
    exact ⟨_, _, rfl, .inr (Bool.eq_false_iff.2 fun h' => h ((meta_eq c).2 h'))⟩

/-- The first character of a member: none that means something at the beginning of a member. -/
theorem head_plain {d : Char} (h : d = '\\' ∨ isMeta d = false) : d ≠ ']' ∧ d ≠ '[' ∧ d ≠ '&' ∧ d ≠ '-' ∧ d ≠ '~' ∧ d ≠ '^' := by
  rcases h with rfl | h
  · decide
  · refine ⟨?_, ?_, ?_, ?_, ?_, ?_⟩ <;> rintro rfl <;> revert h <;> decide

theorem lexMember_writeChar (c : Char) (s : Str) : lexMember (writeChar c ++ s) = some ([(c.toNat, c.toNat)], s) := by
  unfold writeChar
  by_cases h : c ∈ ['\\', '.', '+', '*', '?', '(', ')', '|', '[', ']', '{', '}', '^', '$', '#', '&', '-', '~']
  · rw [if_pos h]
    have hm := (meta_eq c).1 h
    have hne : c ≠ 'n' ∧ c ≠ 't' ∧ c ≠ 'r' ∧ c ≠ 's' ∧ c ≠ 'x' ∧ c ≠ 'u' := by
      refine ⟨?_, ?_, ?_, ?_, ?_, ?_⟩ <;> rintro rfl <;> revert hm <;> decide
    obtain ⟨h1, h2, h3, h4, h5, h6⟩ := hne
    show lexMember ('\\' :: c :: s) = _
    rw [lexMember, if_pos rfl, lexEscape, if_neg h1, if_neg h2, if_neg h3, if_neg h4, if_neg h5, if_neg h6, if_pos hm]
  · rw [if_neg h]
    show lexMember (c :: s) = _
    rw [lexMember, if_neg]
    rintro rfl
    exact h (by decide)

theorem unsupported_plain {d : Char} (h : d = '\\' ∨ isMeta d = false) (s : Str) : unsupported (d :: s) = false := by
  obtain ⟨h1, h2, h3, h4, h5, _⟩ := head_plain h
  unfold unsupported
  simp [List.isPrefixOf, Ne.symm h2, Ne.symm h3, Ne.symm h4, Ne.symm h5]

/-- After a member of a class: no `-` that would make a range. -/
def NoDash (s : Str) : Prop := ∃ d t, s = d :: t ∧ d ≠ '-'

theorem rangeEnd_noDash {s : Str} (h : NoDash s) : rangeEnd s = none := by
  obtain ⟨d, t, rfl, hd⟩ := h
  unfold rangeEnd
  split
  · rename_i heq
    simp only [List.cons.injEq] at heq
    exact absurd heq.1 hd
  · rfl

theorem rangeEnd_writeChar (c : Char) (s : Str) : rangeEnd ('-' :: (writeChar c ++ s)) = some (writeChar c ++ s) := by
  obtain ⟨d, t, h1, h2⟩ := writeChar_head c
  obtain ⟨g1, g2, g3, g4, g5, _⟩ := head_plain h2
  rw [h1, List.cons_append]
  show (if d = ']' ∨ unsupported ('-' :: d :: (t ++ s)) = true then none else some (d :: (t ++ s))) = _
  rw [if_neg]
  rintro (h | h)
  · exact g1 h
  · unfold unsupported at h
    simp [List.isPrefixOf, Ne.symm g4] at h

/-- The members of a class, up to the bracket. -/
theorem lexClass_write : ∀ (ranges : List (Nat × Nat)), (∀ r ∈ ranges, ∃ c d : Char, c ≤ d ∧ r = (c.toNat, d.toNat)) →
    ∀ (rest : Str) (fuel : Nat), (ranges.flatMap writeRange).length < fuel →
    lexClass fuel (ranges.flatMap writeRange ++ ']' :: rest) = some (ranges, rest) := by
  intro ranges
  induction ranges with
  | nil =>
    intro _ rest fuel hf
    cases fuel with
    | zero => simp at hf
    | succ fuel =>
      show lexClass (fuel + 1) (']' :: rest) = _
      rw [lexClass, if_pos rfl]
  | cons r ranges ih =>
    intro hr rest fuel hf
    obtain ⟨c, d, hcd, rfl⟩ := hr r (List.mem_cons_self ..)
    cases fuel with
    | zero => simp at hf
    | succ fuel =>
      rw [List.flatMap_cons, List.length_append] at hf
      obtain ⟨e, t, h1, h2⟩ := writeChar_head c
      obtain ⟨g1, g2, _⟩ := head_plain h2
      have hnd : NoDash (ranges.flatMap writeRange ++ ']' :: rest) := by
        cases ranges with
        | nil => exact ⟨']', rest, rfl, by decide⟩
        | cons r' ranges =>
          obtain ⟨e', t', h1', h2'⟩ := writeChar_head (Char.ofNat r'.1)
          have hd' := (head_plain h2').2.2.2.1
          rw [List.flatMap_cons]
          unfold writeRange
          by_cases he : r'.1 = r'.2
          · rw [if_pos he, h1']
            exact ⟨e', _, rfl, hd'⟩
          · rw [if_neg he, h1']
            exact ⟨e', _, rfl, hd'⟩
      have hfirst : ∀ s : Str, lexClass (fuel + 1) (writeChar c ++ s) =
          match rangeEnd s with
          | none => (lexClass fuel s).map fun p => ((c.toNat, c.toNat) :: p.1, p.2)
          | some r => (lexMember r).bind fun hi => (range [(c.toNat, c.toNat)] hi.1).bind fun ab =>
            (lexClass fuel hi.2).map fun p => (ab :: p.1, p.2) := by
        intro s
        have hm := lexMember_writeChar c s
        rw [h1, List.cons_append] at hm ⊢
        rw [lexClass, if_neg g1, if_neg (by simp [List.isPrefixOf, Ne.symm g2]), if_neg (by rw [unsupported_plain h2]; decide), hm]
        simp only [Option.bind_some]
        rfl
      have hpos : 0 < (writeRange (c.toNat, d.toNat)).length := by
        unfold writeRange
        simp only [Char.ofNat_toNat]
        rw [h1]
        split <;> simp
      have hrec := ih (fun r hr' => hr r (List.mem_cons_of_mem _ hr')) rest fuel (by omega)
      rw [List.flatMap_cons, List.append_assoc]
      have hw : writeRange (c.toNat, d.toNat) = if c.toNat = d.toNat then writeChar c else writeChar c ++ '-' :: writeChar d := by
        simp only [writeRange, Char.ofNat_toNat]
      rw [hw]
      by_cases he : c.toNat = d.toNat
      · rw [if_pos he, hfirst, rangeEnd_noDash hnd]
        simp only
        rw [hrec, ← he]
        rfl
      · rw [if_neg he, List.append_assoc, List.cons_append, hfirst, rangeEnd_writeChar]
        simp only
        rw [lexMember_writeChar]
        simp only [Option.bind_some]
        rw [range, if_pos (show c.toNat ≤ d.toNat from hcd)]
        simp only [Option.bind_some]
        rw [hrec]
        rfl

theorem lexOne_class (negated : Bool) (ranges : List (Nat × Nat)) (hne : ranges ≠ [])
    (h : ∀ r ∈ ranges, ∃ c d : Char, c ≤ d ∧ r = (c.toNat, d.toNat)) :
    lexOne (write (.cls negated ranges)) = some (.atom (.cls negated ranges), []) := by
  obtain ⟨e, t, h1, h2⟩ : ∃ e t, ranges.flatMap writeRange = e :: t ∧ (e = '\\' ∨ isMeta e = false) := by
    cases ranges with
    | nil => exact absurd rfl hne
    | cons r ranges =>
      obtain ⟨e', t', h1', h2'⟩ := writeChar_head (Char.ofNat r.1)
      rw [List.flatMap_cons]
      unfold writeRange
      by_cases he : r.1 = r.2
      · rw [if_pos he, h1']
        exact ⟨e', _, rfl, h2'⟩
      · rw [if_neg he, h1']
        exact ⟨e', _, rfl, h2'⟩
  obtain ⟨g1, _, _, _, _, g6⟩ := head_plain h2
  have hb : lexBracket ((if negated then ['^'] else []) ++ ranges.flatMap writeRange ++ [']']) = some (.cls negated ranges, []) := by
    have hs : strip '^' ((if negated then ['^'] else []) ++ ranges.flatMap writeRange ++ [']']) =
        (negated, ranges.flatMap writeRange ++ [']']) := by
      cases negated with
      | true => simp [strip]
      | false => simp [h1, strip, g6]
    have hs' : strip ']' (ranges.flatMap writeRange ++ [']']) = (false, ranges.flatMap writeRange ++ [']']) := by
      rw [h1]
      simp [strip, g1]
    unfold lexBracket
    simp only [hs, hs']
    rw [lexClass_write ranges h [] _ (by rw [List.length_append]; simp only [List.length_singleton]; omega)]
    rfl
  show lexOne ('[' :: _) = _
  rw [lexOne]
  simp only [hb]
  simp

/-! ### Numbers and repetitions -/

theorem digit_toNat {d : Nat} (h : d < 10) : (Json.digitChar d).toNat = 48 + d :=
  (by decide : ∀ d < 10, (Json.digitChar d).toNat = 48 + d) d h

theorem digit_isDigit {d : Nat} (h : d < 10) : isDigit (Json.digitChar d) = true :=
  (by decide : ∀ d < 10, isDigit (Json.digitChar d) = true) d h

theorem lexNat_digits (c : Char) (r : Str) (hc : isDigit c = false) : ∀ (ds : List Nat), (∀ d ∈ ds, d < 10) → ∀ acc,
    lexNat acc (ds.map Json.digitChar ++ c :: r) = (ds.foldl (fun a d => 10 * a + d) acc, c :: r) := by
  intro ds
  induction ds with
  | nil =>
    intro _ acc
    show lexNat acc (c :: r) = _
    rw [lexNat, if_neg (by rw [hc]; decide)]
    rfl
  | cons d ds ih =>
    intro h acc
    have hd := h d (List.mem_cons_self ..)
    rw [List.map_cons, List.cons_append, lexNat, if_pos (digit_isDigit hd), digit_toNat hd,
      ih (fun e he => h e (List.mem_cons_of_mem _ he)), List.foldl_cons]
    have : acc * 10 + (48 + d - 48) = 10 * acc + d := by omega
    rw [this]

theorem lexNat_showNat (n : Nat) (c : Char) (r : Str) (hc : isDigit c = false) : lexNat 0 (showNat n ++ c :: r) = (n, c :: r) := by
  unfold showNat
  rw [lexNat_digits c r hc _ (decimal_digits n).1, (decimal_digits n).2.2.2]

theorem showNat_head (n : Nat) : ∃ c s, showNat n = c :: s ∧ isDigit c = true := by
  have h1 := (decimal_digits n).1
  have h2 := (decimal_digits n).2.1
  unfold showNat
  cases h : decimal n with
  | nil => exact absurd h h2
  | cons d ds => exact ⟨_, _, rfl, digit_isDigit (h1 d (by rw [h]; exact List.mem_cons_self ..))⟩

theorem lexCount_showNat (m : Nat) (c : Char) (r : Str) (hc : isDigit c = false) :
    lexCount (showNat m ++ c :: r) = lexCountMin m (c :: r) := by
  obtain ⟨d, s, h1, h2⟩ := showNat_head m
  have h3 := lexNat_showNat m c r hc
  rw [h1, List.cons_append] at h3 ⊢
  rw [lexCount, if_pos h2, h3]

theorem lexCountMax_showNat (m n : Nat) (r : Str) :
    lexCountMax m (showNat n ++ '}' :: r) = if m ≤ n then some (.post m (some n), dropLazy r) else none := by
  obtain ⟨d, s, h1, h2⟩ := showNat_head n
  have h3 := lexNat_showNat n '}' r (by decide)
  rw [h1, List.cons_append] at h3 ⊢
  have h4 : d ≠ '}' := by
    rintro rfl
    revert h2
    decide
  rw [lexCountMax, if_neg h4, if_pos h2, h3]
  simp [lexCountEnd]

theorem lexOne_brace (s : Str) : lexOne ('{' :: s) = lexCount s := by
  rw [lexOne]; simp

/-- What a repetition is read as, with or without a question mark after it. -/
theorem lexOne_quantifier {q : Str} {m : Nat} {n : Option Nat} (h : Quantifier q m n) (r : Str) :
    lexOne (q ++ r) = some (.post m n, dropLazy r) := by
  cases h with
  | optional => show lexOne ('?' :: r) = _; rw [lexOne]; simp
  | star => show lexOne ('*' :: r) = _; rw [lexOne]; simp
  | plus => show lexOne ('+' :: r) = _; rw [lexOne]; simp
  | exactly m =>
    rw [List.cons_append, List.cons_append, lexOne_brace, List.append_assoc]
    show lexCount (showNat m ++ '}' :: r) = _
    rw [lexCount_showNat _ _ _ (by decide), lexCountMin, if_pos rfl]
  | count m n hmn =>
    cases n with
    | none =>
      show lexOne (('{' :: showNat m ++ [',', '}']) ++ r) = _
      rw [List.cons_append, List.cons_append, lexOne_brace, List.append_assoc]
      show lexCount (showNat m ++ ',' :: '}' :: r) = _
      rw [lexCount_showNat _ _ _ (by decide), lexCountMin, if_neg (by decide), if_pos rfl, lexCountMax, if_pos rfl]
    | some n =>
      have e : writeCount m (some n) ++ r = '{' :: (showNat m ++ ',' :: (showNat n ++ '}' :: r)) := by
        simp [writeCount]
      rw [e, lexOne_brace, lexCount_showNat _ _ _ (by decide), lexCountMin, if_neg (by decide), if_pos rfl,
        lexCountMax_showNat, if_pos (hmn n rfl)]

theorem quantifier_ne {q : Str} {m : Nat} {n : Option Nat} (h : Quantifier q m n) : q ≠ [] := by
  cases h with
  | optional => simp
  | star => simp
  | plus => simp
  | exactly m => simp
  | count m n _ => cases n <;> simp [writeCount]

/-! ### Patterns put together -/

theorem parse_atom {s : Str} {re : Re} (hs : s ≠ []) (h : lexOne s = some (.atom re, [])) : parse s = some re := by
  refine parse_some.2 ⟨[.atom re], { alts := [], items := [re] }, ?_, rfl, rfl⟩
  exact Lexes.one h (List.length_pos_iff.2 hs) Lexes.nil

theorem group_eq (a : Str) : group a = "(?:".toList ++ a ++ ")".toList := rfl

theorem Lexes.group {c : Str} {vs : List Tok} (h : Lexes c vs) : Lexes (Spec.group c) (Tok.opening :: vs ++ [Tok.closing]) := by
  have e : Spec.group c = '(' :: '?' :: ':' :: (c ++ [')']) := by simp [Spec.group]
  rw [e]
  exact Lexes.one (lexOne_group _) (by simp) (h.append (Lexes.one (lexOne_closing []) (by simp) Lexes.nil) (by simp))

theorem parse_group {a : Str} {x : Re} (ha : parse a = some x) : parse (group a) = some x := by
  obtain ⟨ts, f, h1, h2, rfl⟩ := parse_some.1 ha
  exact parse_some.2 ⟨_, { alts := [], items := [f.finish] }, h1.group, foldlM_group h2 _ _, rfl⟩

theorem parse_cat {a b : Str} {x y : Re} (ha : parse a = some x) (hb : parse b = some y) :
    parse (group a ++ group b) = some (.cat x y) := by
  obtain ⟨ts, f, h1, h2, rfl⟩ := parse_some.1 ha
  obtain ⟨us, g, h3, h4, rfl⟩ := parse_some.1 hb
  refine parse_some.2 ⟨_, { alts := [], items := [g.finish, f.finish] }, h1.group.append h3.group (by simp [group]), ?_, rfl⟩
  rw [List.foldlM_append, foldlM_group h2]
  exact foldlM_group h4 _ _

theorem parse_groups_alt {a b : Str} {x y : Re} (ha : parse a = some x) (hb : parse b = some y) :
    parse (group a ++ '|' :: group b) = some (.alt x y) := by
  obtain ⟨ts, f, h1, h2, rfl⟩ := parse_some.1 ha
  obtain ⟨us, g, h3, h4, rfl⟩ := parse_some.1 hb
  refine parse_some.2 ⟨_, { alts := [f.finish], items := [g.finish] },
    h1.group.append (Lexes.one (lexOne_bar _) (by simp) h3.group) (by simp), ?_, rfl⟩
  rw [List.foldlM_append, foldlM_group h2]
  show (Tok.opening :: us ++ [Tok.closing]).foldlM step [{ alts := [f.finish], items := [] }] = _
  exact foldlM_group h4 _ _

theorem parse_rep {a q : Str} {x : Re} {m : Nat} {n : Option Nat} (ha : parse a = some x) (hq : Quantifier q m n) :
    parse (group a ++ q) = some (.rep x m n) ∧ parse (group a ++ q ++ ['?']) = some (.rep x m n) := by
  obtain ⟨ts, f, h1, h2, rfl⟩ := parse_some.1 ha
  have key : ∀ l : Str, lexOne (q ++ l) = some (.post m n, []) → parse (group a ++ (q ++ l)) = some (.rep f.finish m n) := by
    intro l hl
    refine parse_some.2 ⟨Tok.opening :: (ts ++ [Tok.closing, .post m n]), { alts := [], items := [.rep f.finish m n] }, ?_, ?_, rfl⟩
    · have e : group a ++ (q ++ l) = '(' :: '?' :: ':' :: (a ++ ')' :: (q ++ l)) := by simp [group]
      rw [e]
      refine Lexes.one (lexOne_group _) (by simp; omega) (h1.append (Lexes.one (lexOne_closing _) (by simp) (Lexes.one hl ?_ Lexes.nil)) (by simp))
      have := List.length_pos_iff.2 (quantifier_ne hq)
      rw [List.length_append, List.length_nil]
      omega
    · have e : Tok.opening :: (ts ++ [Tok.closing, .post m n]) = (Tok.opening :: ts ++ [Tok.closing]) ++ [.post m n] := by simp
      rw [e, List.foldlM_append, foldlM_group h2]
      rfl
  constructor
  · have := key [] (lexOne_quantifier hq [])
    rwa [List.append_nil] at this
  · rw [List.append_assoc]
    exact key ['?'] (lexOne_quantifier hq ['?'])

/-- Every pattern can be written, and is read as itself. -/
theorem parse_write : ∀ (re : Re), Writable re → parse (write re) = some re
  | .empty, _ => rfl
  | .cls negated ranges, h => parse_atom (by simp [write]) (lexOne_class negated ranges h.1 h.2)
  | .start, _ => rfl
  | .stop, _ => rfl
  | .cat a b, h => parse_cat (parse_write a h.1) (parse_write b h.2)
  | .alt a b, h => parse_groups_alt (parse_write a h.1) (parse_write b h.2)
  | .rep a m n, h => (parse_rep (parse_write a h.1) (.count m n h.2)).1

/-! ### A bar between patterns -/

/-- More alternatives in the outermost group. -/
def addAlts (more : List Re) : List Frame → List Frame
  | [] => []
  | [f] => [{ f with alts := f.alts ++ more }]
  | f :: g :: outer => f :: addAlts more (g :: outer)

theorem addAlts_cons (more : List Re) (f : Frame) (outer : List Frame) : ∃ alts', addAlts more (f :: outer) =
    { alts := alts', items := f.items } :: addAlts more outer ∧ (alts' = f.alts ++ more ∧ outer = [] ∨ alts' = f.alts ∧ outer ≠ []) := by
  cases outer with
  | nil => exact ⟨_, rfl, .inl ⟨rfl, rfl⟩⟩
  | cons g outer => exact ⟨_, rfl, .inr ⟨rfl, by simp⟩⟩

theorem step_addAlts (more : List Re) {st st' : List Frame} {t : Tok} (h : step st t = some st') :
    step (addAlts more st) t = some (addAlts more st') := by
  cases st with
  | nil => cases h
  | cons f outer =>
    obtain ⟨fa, fi⟩ := f
    cases t with
    | atom r => cases h; cases outer <;> rfl
    | post min max =>
      cases fi with
      | nil => cases h
      | cons a rest => cases h; cases outer <;> rfl
    | bar => cases h; cases outer <;> rfl
    | opening => cases h; cases outer <;> rfl
    | closing =>
      cases outer with
      | nil => cases h
      | cons g outer => cases h; cases outer <;> rfl

theorem foldlM_addAlts (more : List Re) : ∀ (ts : List Tok) {st st' : List Frame}, ts.foldlM step st = some st' →
    ts.foldlM step (addAlts more st) = some (addAlts more st') := by
  intro ts
  induction ts with
  | nil => intro st st' h; cases h; rfl
  | cons t ts ih =>
    intro st st' h
    rw [List.foldlM_cons] at h ⊢
    obtain ⟨st1, h1, h2⟩ := Option.bind_eq_some_iff.1 h
    rw [step_addAlts more h1]
    exact ih h2

theorem parse_bar {a b : Str} {x y : Re} (ha : parse a = some x) (hb : parse b = some y) :
    ∃ re, parse (a ++ '|' :: b) = some re ∧ ∀ before w after, Matches re before w after ↔
      Matches x before w after ∨ Matches y before w after := by
  obtain ⟨ts, f, h1, h2, rfl⟩ := parse_some.1 ha
  obtain ⟨us, g, h3, h4, rfl⟩ := parse_some.1 hb
  have h5 := foldlM_addAlts (catAll f.items :: f.alts) us h4
  refine ⟨_, parse_some.2 ⟨_, { g with alts := g.alts ++ catAll f.items :: f.alts },
    h1.append (Lexes.one (lexOne_bar _) (by simp) h3) (by simp), ?_, rfl⟩, ?_⟩
  · rw [List.foldlM_append, h2]
    exact h5
  · intro before w after
    simp only [Frame.finish, matches_altAll, List.mem_append, List.mem_cons]
    constructor
    · rintro (h | ⟨z, h | rfl | h, h'⟩)
      · exact .inr (.inl h)
      · exact .inr (.inr ⟨z, h, h'⟩)
      · exact .inl (.inl h')
      · exact .inl (.inr ⟨z, h, h'⟩)
    · rintro ((h | ⟨z, h, h'⟩) | (h | ⟨z, h, h'⟩))
      · exact .inr ⟨_, .inr (.inl rfl), h⟩
      · exact .inr ⟨z, .inr (.inr h), h'⟩
      · exact .inl h
      · exact .inr ⟨z, .inl h, h'⟩

/-! ### What is not a pattern -/

theorem lexAll_bad {t : Str} (ht : t.head? ≠ some '?') (hne : t ≠ []) (hu : lexOne t = none) :
    ∀ (f : Nat) (s : Str) {ts : List Tok}, lexAll f s = some ts → ∀ g, lexAll g (s ++ t) = none := by
  have hbase : ∀ g, lexAll g t = none := by
    intro g
    cases t with
    | nil => exact absurd rfl hne
    | cons c t =>
      cases g with
      | zero => rfl
      | succ g => rw [lexAll, hu]; rfl
  intro f
  induction f with
  | zero =>
    intro s ts h g
    cases s with
    | nil => exact hbase g
    | cons c s => cases h
  | succ f ih =>
    intro s ts h g
    cases s with
    | nil => exact hbase g
    | cons c s =>
      rw [lexAll] at h
      obtain ⟨⟨x, r⟩, h1, h2⟩ := Option.bind_eq_some_iff.1 h
      obtain ⟨vs, h3, _⟩ := Option.map_eq_some_iff.1 h2
      have := lexOne_append ht _ h1
      rw [List.cons_append] at this
      rw [List.cons_append]
      cases g with
      | zero => rfl
      | succ g =>
        rw [lexAll, this, Option.bind_some, ih _ h3]
        rfl

theorem parse_lex_none {s : Str} (h : lex s = none) : parse s = none := by
  unfold parse
  rw [h]
  rfl

theorem parse_bad_count {a : Str} {x : Re} (ha : parse a = some x) {m n : Nat} (h : n < m) :
    parse (group a ++ writeCount m (some n)) = none := by
  obtain ⟨ts, f, h1, _, _⟩ := parse_some.1 ha
  refine parse_lex_none (lexAll_bad ?_ ?_ ?_ _ _ h1.group _)
  · simp [writeCount]
  · simp [writeCount]
  · have e : writeCount m (some n) = '{' :: (showNat m ++ ',' :: (showNat n ++ '}' :: [])) := by simp [writeCount]
    rw [e, lexOne_brace, lexCount_showNat _ _ _ (by decide), lexCountMin, if_neg (by decide), if_pos rfl,
      lexCountMax_showNat, if_neg (by omega)]

theorem parse_bad_range {c d : Char} (h : d < c) (negated : Bool) :
    parse ('[' :: ((if negated then ['^'] else []) ++ (writeChar c ++ '-' :: writeChar d) ++ [']'])) = none := by
  have hne : writeChar c ++ '-' :: writeChar d ≠ [] := by simp
  obtain ⟨e, t, h1, h2⟩ := writeChar_head c
  obtain ⟨g1, g2, _, _, _, g6⟩ := head_plain h2
  have hs : strip '^' ((if negated then ['^'] else []) ++ (writeChar c ++ '-' :: writeChar d) ++ [']']) =
      (negated, writeChar c ++ '-' :: writeChar d ++ [']']) := by
    cases negated with
    | true => simp [strip]
    | false => simp [h1, strip, g6]
  have hs' : strip ']' (writeChar c ++ '-' :: writeChar d ++ [']']) = (false, writeChar c ++ '-' :: writeChar d ++ [']']) := by
    rw [h1]
    simp [strip, g1]
  have hc : ∀ fuel, lexClass (fuel + 1) (writeChar c ++ '-' :: writeChar d ++ [']']) = none := by
    intro fuel
    have hm := lexMember_writeChar c ('-' :: (writeChar d ++ [']']))
    rw [List.append_assoc, List.cons_append]
    rw [h1, List.cons_append] at hm ⊢
    rw [lexClass, if_neg g1, if_neg (by simp [List.isPrefixOf, Ne.symm g2]), if_neg (by rw [unsupported_plain h2]; decide), hm]
    simp only [Option.bind_some]
    rw [rangeEnd_writeChar]
    simp only
    rw [lexMember_writeChar]
    simp only [Option.bind_some]
    rw [range, if_neg (Nat.not_le.2 (show d.toNat < c.toNat from h))]
    rfl
  have hb : lexBracket ((if negated then ['^'] else []) ++ (writeChar c ++ '-' :: writeChar d) ++ [']']) = none := by
    unfold lexBracket
    simp only [hs, hs']
    rw [hc]
    rfl
  apply parse_lex_none
  generalize (if negated then ['^'] else []) ++ (writeChar c ++ '-' :: writeChar d) ++ [']'] = body at hb
  show lexAll (body.length + 1) ('[' :: body) = none
  rw [lexAll, lexOne]
  simp [hb]

/-- Parentheses that do not match. -/
theorem parse_open {a : Str} {x : Re} (ha : parse a = some x) : parse ("(?:".toList ++ a) = none ∧ parse (a ++ [')']) = none := by
  obtain ⟨ts, f, h1, h2, rfl⟩ := parse_some.1 ha
  have key : ∀ {s : Str} {us : List Tok}, Lexes s us → (us.foldlM step [{}] = none ∨ ∃ f g, us.foldlM step [{}] = some [f, g]) →
      parse s = none := by
    intro s us hl h
    unfold Lexes at hl
    unfold parse lex
    rw [hl]
    show (us.foldlM step [{}]).bind _ = _
    rcases h with h | ⟨f, g, h⟩
    · rw [h]; rfl
    · rw [h]; rfl
  constructor
  · refine key (us := .opening :: ts) (Lexes.one (lexOne_group a) (by simp; omega) h1) (.inr ⟨f, {}, ?_⟩)
    exact foldlM_base ts h2 [{}]
  · refine key (us := ts ++ [.closing]) (h1.append (Lexes.one (lexOne_closing []) (by simp) Lexes.nil) (by simp)) (.inl ?_)
    rw [List.foldlM_append, h2]
    rfl

/-! ### Characters by number -/

theorem hexValue_hexDigit (upper : Bool) {d : Nat} (h : d < 16) : hexValue (hexDigit upper d) = some d :=
  (by decide : ∀ upper, ∀ d < 16, hexValue (hexDigit upper d) = some d) upper d h

theorem lexHex_snoc (d : Nat) (upper : Bool) (hd : d < 16) (rest : Str) : ∀ (k acc : Nat) (s : Str) (v : Nat),
    lexHex k acc s = some (v, []) → lexHex (k + 1) acc (s ++ hexDigit upper d :: rest) = some (v * 16 + d, rest) := by
  intro k
  induction k with
  | zero =>
    intro acc s v h
    rw [lexHex] at h
    cases h
    show lexHex 1 acc (hexDigit upper d :: rest) = _
    rw [lexHex, hexValue_hexDigit upper hd, Option.bind_some, lexHex]
  | succ k ih =>
    intro acc s v h
    cases s with
    | nil => cases h
    | cons c s =>
      rw [lexHex] at h
      rw [List.cons_append, lexHex]
      cases hc : hexValue c with
      | none => rw [hc] at h; cases h
      | some x => rw [hc] at h; exact ih _ _ _ h

theorem lexHex_digits (upper : Bool) : ∀ (k n : Nat), n < 16 ^ k → lexHex k 0 (hexDigits upper k n) = some (n, []) := by
  intro k
  induction k with
  | zero => intro n h; have : n = 0 := by simpa using h
            subst this; rfl
  | succ k ih =>
    intro n h
    have := lexHex_snoc (n % 16) upper (Nat.mod_lt _ (by decide)) [] k 0 _ _ (ih (n / 16) (by rw [Nat.pow_succ] at h; omega))
    rw [hexDigits, this]
    congr 2
    omega

theorem parse_hex (upper : Bool) {n : Nat} (h : n < 256) : parse ('\\' :: 'x' :: hexDigits upper 2 n) = some (.cls false [(n, n)]) := by
  apply parse_atom (by simp)
  rw [lexOne]
  simp only [Char.reduceEq, if_false, if_true]
  rw [lexEscape]
  simp only [Char.reduceEq, if_false, if_true]
  rw [lexHex_digits upper 2 n h]
  rfl

theorem parse_hex4 (upper : Bool) {n : Nat} (h : n < 65536) : parse ('\\' :: 'u' :: hexDigits upper 4 n) =
    if n.isValidChar then some (.cls false [(n, n)]) else none := by
  have h1 : lexOne ('\\' :: 'u' :: hexDigits upper 4 n) = if n.isValidChar then some (.atom (.cls false [(n, n)]), []) else none := by
    rw [lexOne]
    simp only [Char.reduceEq, if_false, if_true]
    rw [lexEscape]
    simp only [Char.reduceEq, if_false, if_true]
    rw [lexHex_digits upper 4 n h, Option.bind_some]
    by_cases hv : n.isValidChar
    · rw [if_pos hv, if_pos hv]; rfl
    · rw [if_neg hv, if_neg hv]; rfl
  by_cases hv : n.isValidChar
  · rw [if_pos hv] at h1 ⊢
    exact parse_atom (by simp) h1
  · rw [if_neg hv] at h1 ⊢
    apply parse_lex_none
    show lexAll (_ + 1) (_ :: _) = none
    rw [lexAll, h1]
    rfl

end Re
end Tokengeex

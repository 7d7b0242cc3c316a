import Verif.Proofs.PatternText
import Verif.Proofs.Regex
/-
Reading classes.
-/
namespace Tokengeex
open Spec
namespace Re

/-- The ranges of code points of a member. -/
def memberRanges : Member → List (Nat × Nat)
  | .range c d => [(c.toNat, d.toNat)]
  | .space => whitespace
  | .punctuation => punct
  | .newline => [(10, 10)]
  | .tab => [(9, 9)]
  | .return => [(13, 13)]

theorem member_step (m : Member) (hm : ∀ c d, m = .range c d → c ≤ d) {T : Str} (hT : rangeEnd T = none) {X : List (Nat × Nat)}
    {r : Str} (h : ∀ fuel, T.length ≤ fuel → lexClass fuel T = some (X, r)) :
    ∀ fuel, (m.text ++ T).length ≤ fuel → lexClass fuel (m.text ++ T) = some (memberRanges m ++ X, r) := by
  intro fuel hf
  have esc : ∀ (c : Char) (l : List (Nat × Nat)), lexEscape (c :: T) = some (l, T) → ('\\' :: c :: T).length ≤ fuel →
      lexClass fuel ('\\' :: c :: T) = some (l ++ X, r) := by
    intro c l he hf
    cases fuel with
    | zero => simp at hf
    | succ fuel =>
      rw [lexClass, if_neg (by decide), if_neg (by simp [List.isPrefixOf]), if_neg (by simp [unsupported, List.isPrefixOf]),
        lexMember, if_pos rfl, he]
      simp only [Option.bind_some, hT]
      rw [h fuel (by simp at hf; omega)]
      rfl
  cases m with
  | space => exact esc 's' whitespace rfl hf
  | newline => exact esc 'n' _ rfl hf
  | tab => exact esc 't' _ rfl hf
  | «return» => exact esc 'r' _ rfl hf
  | punctuation =>
    cases fuel with
    | zero => exact absurd hf (by simp [Member.text])
    | succ fuel =>
      have hl : "[:punct:]".toList = ['[', ':', 'p', 'u', 'n', 'c', 't', ':', ']'] := by decide
      simp only [Member.text, List.cons_append, List.nil_append, List.length_cons] at hf ⊢
      rw [lexClass, if_neg (by decide), hl, if_pos (by simp [List.isPrefixOf])]
      simp only [List.drop_succ_cons, List.drop_zero]
      rw [h fuel (by omega)]
      rfl
  | range c d =>
    have hcd := hm c d rfl
    cases fuel with
    | zero =>
      obtain ⟨e, t, h1, _⟩ := writeChar_head c
      simp only [Member.text, writeRange, Char.ofNat_toNat, h1] at hf
      split at hf <;> simp at hf
    | succ fuel =>
      obtain ⟨e, t, h1, h2⟩ := writeChar_head c
      obtain ⟨g1, g2, _⟩ := head_plain h2
      have hfirst : ∀ s : Str, lexClass (fuel + 1) (writeChar c ++ s) =
          match rangeEnd s with
          | none => (lexClass fuel s).map fun p => ((c.toNat, c.toNat) :: p.1, p.2)
          | some r => (lexMember r).bind fun hi => (Re.range [(c.toNat, c.toNat)] hi.1).bind fun ab =>
            (lexClass fuel hi.2).map fun p => (ab :: p.1, p.2) := by
        intro s
        have hm := lexMember_writeChar c s
        rw [h1, List.cons_append] at hm ⊢
        rw [lexClass, if_neg g1, if_neg (by simp [List.isPrefixOf, Ne.symm g2]), if_neg (by rw [unsupported_plain h2]; decide), hm]
        simp only [Option.bind_some]
        rfl
      have hw : (Member.range c d).text = if c.toNat = d.toNat then writeChar c else writeChar c ++ '-' :: writeChar d := by
        simp only [Member.text, writeRange, Char.ofNat_toNat]
      have hpos : 0 < (writeChar c).length := by rw [h1]; simp
      rw [hw] at hf ⊢
      by_cases he : c.toNat = d.toNat
      · rw [if_pos he] at hf ⊢
        rw [hfirst, hT]
        simp only
        rw [h fuel (by simp at hf; omega), memberRanges, ← he]
        rfl
      · rw [if_neg he] at hf ⊢
        rw [List.append_assoc, List.cons_append, hfirst, rangeEnd_writeChar]
        simp only
        rw [lexMember_writeChar]
        simp only [Option.bind_some]
        rw [Re.range, if_pos (show c.toNat ≤ d.toNat from hcd)]
        simp only [Option.bind_some]
        rw [h fuel (by simp at hf; omega)]
        rfl

theorem member_head (m : Member) : ∃ e t, m.text = e :: t ∧ e ≠ '-' ∧ e ≠ ']' ∧ e ≠ '^' := by
  cases m with
  | space => exact ⟨'\\', _, rfl, by decide, by decide, by decide⟩
  | newline => exact ⟨'\\', _, rfl, by decide, by decide, by decide⟩
  | tab => exact ⟨'\\', _, rfl, by decide, by decide, by decide⟩
  | «return» => exact ⟨'\\', _, rfl, by decide, by decide, by decide⟩
  | punctuation => exact ⟨'[', _, rfl, by decide, by decide, by decide⟩
  | range c d =>
    obtain ⟨e, t, h1, h2⟩ := writeChar_head c
    obtain ⟨g1, _, _, g4, _, g6⟩ := head_plain h2
    simp only [Member.text, writeRange, Char.ofNat_toNat, h1]
    split
    · exact ⟨e, t, rfl, g4, g1, g6⟩
    · exact ⟨e, _, rfl, g4, g1, g6⟩

/-- The ranges of a class that is written with `classText`. -/
def classRanges (bracket : Bool) (members : List Member) (hyphen : Bool) : List (Nat × Nat) :=
  (if bracket then [(93, 93)] else []) ++ members.flatMap memberRanges ++ (if hyphen then [(45, 45)] else [])

theorem lexClass_members (hyphen : Bool) : ∀ (members : List Member), (∀ c d, .range c d ∈ members → c ≤ d) →
    rangeEnd (members.flatMap Member.text ++ (if hyphen then ['-'] else []) ++ [']']) = none ∧
    ∀ fuel, (members.flatMap Member.text ++ (if hyphen then ['-'] else []) ++ [']']).length ≤ fuel →
      lexClass fuel (members.flatMap Member.text ++ (if hyphen then ['-'] else []) ++ [']']) =
        some (members.flatMap memberRanges ++ (if hyphen then [(45, 45)] else []), [])
  | [], _ => by
    have close : ∀ fuel, 1 ≤ fuel → lexClass fuel [']'] = some ([], []) := by
      intro fuel hf
      cases fuel with
      | zero => omega
      | succ fuel => rw [lexClass, if_pos rfl]
    cases hyphen with
    | false => exact ⟨rfl, fun fuel hf => close fuel (by simpa using hf)⟩
    | true =>
      refine ⟨rfl, fun fuel hf => ?_⟩
      cases fuel with
      | zero => simp at hf
      | succ fuel =>
        show lexClass (fuel + 1) ['-', ']'] = _
        rw [lexClass, if_neg (by decide), if_neg (by decide), if_neg (by decide), lexMember, if_neg (by decide)]
        simp only [Option.bind_some]
        rw [show rangeEnd [']'] = none from rfl]
        simp only
        rw [close fuel (by simp at hf; omega)]
        rfl
  | m :: members, hm => by
    obtain ⟨h1, h2⟩ := lexClass_members hyphen members fun c d h => hm c d (List.mem_cons_of_mem _ h)
    refine ⟨?_, ?_⟩
    · obtain ⟨e, t, h3, h4, _⟩ := member_head m
      rw [List.flatMap_cons, h3]
      exact rangeEnd_noDash ⟨e, _, rfl, h4⟩
    · intro fuel hf
      have := member_step m (fun c d e => hm c d (e ▸ List.mem_cons_self ..)) h1 h2 fuel (by
        rw [List.flatMap_cons, List.append_assoc, List.append_assoc, ← List.append_assoc (members.flatMap _)] at hf
        exact hf)
      rw [List.flatMap_cons, List.append_assoc, List.append_assoc, ← List.append_assoc (members.flatMap _), this,
        List.flatMap_cons, List.append_assoc]

theorem parse_class (negated bracket hyphen : Bool) (members : List Member) (hm : ∀ c d, .range c d ∈ members → c ≤ d)
    (hne : bracket = true ∨ members ≠ [] ∨ hyphen = true) :
    parse (classText negated bracket members hyphen) = some (.cls negated (classRanges bracket members hyphen)) := by
  obtain ⟨_, h2⟩ := lexClass_members hyphen members hm
  refine parse_atom (by simp [classText]) ?_
  -- the text after the caret and the bracket
  have hfirst : ∃ e t, (if bracket then [']'] else []) ++ (members.flatMap Member.text ++ (if hyphen then ['-'] else []) ++ [']']) = e :: t ∧
      e ≠ '^' ∧ (bracket = false → e ≠ ']') := by
    cases bracket with
    | true => exact ⟨']', _, rfl, by decide, by simp⟩
    | false =>
      cases members with
      | nil =>
        cases hyphen with
        | true => exact ⟨'-', _, rfl, by decide, fun _ => by decide⟩
        | false => simp at hne
      | cons m members =>
        obtain ⟨e, t, h3, _, h4, h5⟩ := member_head m
        refine ⟨e, _, by rw [List.flatMap_cons, h3]; rfl, h5, fun _ => h4⟩
  obtain ⟨e, t, h3, h4, h5⟩ := hfirst
  have hs : strip '^' ((if negated then ['^'] else []) ++ (e :: t)) = (negated, e :: t) := by
    cases negated with
    | true => simp [strip]
    | false => simp [strip, h4]
  have hs' : strip ']' (e :: t) = (bracket, members.flatMap Member.text ++ (if hyphen then ['-'] else []) ++ [']']) := by
    cases bracket with
    | true =>
      simp only [if_true, List.singleton_append, List.cons.injEq] at h3
      rw [← h3.1, ← h3.2]
      simp [strip]
    | false =>
      rw [if_neg (by decide), List.nil_append] at h3
      rw [h3]
      simp [strip, h5 rfl]
  have hb : lexBracket ((if negated then ['^'] else []) ++ (if bracket then [']'] else []) ++ members.flatMap Member.text ++
      (if hyphen then ['-'] else []) ++ [']']) = some (.cls negated (classRanges bracket members hyphen), []) := by
    rw [show (if negated then ['^'] else []) ++ (if bracket then [']'] else []) ++ members.flatMap Member.text ++
      (if hyphen then ['-'] else []) ++ [']'] = (if negated then ['^'] else []) ++ (e :: t) by rw [← h3]; simp]
    unfold lexBracket
    simp only [hs, hs']
    rw [h2 _ (by omega)]
    cases bracket <;> simp [classRanges]
  show lexOne ('[' :: _) = _
  rw [lexOne]
  simp only [hb]
  simp

theorem mem_space (x : Nat) : (∃ r ∈ whitespace, r.1 ≤ x ∧ x ≤ r.2) ↔
    x ∈ [9, 10, 11, 12, 13, 32, 0x85, 0xA0, 0x1680, 0x2028, 0x2029, 0x202F, 0x205F, 0x3000] ∨ 0x2000 ≤ x ∧ x ≤ 0x200A := by
  simp only [whitespace, List.mem_cons, List.not_mem_nil, or_false, exists_eq_or_imp, exists_eq_left]
  omega

theorem mem_punct (x : Char) : (∃ r ∈ punct, r.1 ≤ x.toNat ∧ x.toNat ≤ r.2) ↔ x ∈ "!\"#$%&'()*+,-./:;<=>?@[\\]^_`{|}~".toList := by
  have h : x ∈ "!\"#$%&'()*+,-./:;<=>?@[\\]^_`{|}~".toList ↔ x.toNat ∈ "!\"#$%&'()*+,-./:;<=>?@[\\]^_`{|}~".toList.map Char.toNat := by
    constructor
    · exact List.mem_map_of_mem
    · intro h
      obtain ⟨y, h1, h2⟩ := List.mem_map.1 h
      rw [← Char.toNat_inj.1 h2]; exact h1
  rw [h]
  generalize x.toNat = n
  simp only [punct, List.mem_cons, List.not_mem_nil, or_false, exists_eq_or_imp, exists_eq_left]
  constructor
  · intro h
    have : n < 127 := by omega
    revert h
    exact (by decide : ∀ n < 127, (33 ≤ n ∧ n ≤ 47 ∨ 58 ≤ n ∧ n ≤ 64 ∨ 91 ≤ n ∧ n ≤ 96 ∨ 123 ≤ n ∧ n ≤ 126) →
      n ∈ "!\"#$%&'()*+,-./:;<=>?@[\\]^_`{|}~".toList.map Char.toNat) n this
  · intro h
    revert n
    decide

theorem mem_member (m : Member) (x : Char) : (∃ r ∈ memberRanges m, r.1 ≤ x.toNat ∧ x.toNat ≤ r.2) ↔ m.Has x := by
  have one : ∀ y : Char, (∃ r ∈ [(y.toNat, y.toNat)], r.1 ≤ x.toNat ∧ x.toNat ≤ r.2) ↔ x = y := by
    intro y
    simp only [List.mem_singleton, exists_eq_left]
    constructor
    · intro h; exact Char.toNat_inj.1 (by omega)
    · rintro rfl; exact ⟨Nat.le_refl _, Nat.le_refl _⟩
  cases m with
  | space => exact mem_space x.toNat
  | punctuation => exact mem_punct x
  | newline => exact one '\n'
  | tab => exact one '\t'
  | «return» => exact one '\r'
  | range c d => simp only [memberRanges, List.mem_singleton, exists_eq_left]; rfl

end Re

end Tokengeex

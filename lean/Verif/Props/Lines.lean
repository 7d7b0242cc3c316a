import Verif.Spec.Lines
import Verif.Proofs.IntNumbers
import Mathlib.Tactic.SplitIfs
/-
The lines of saved tokenizers (C125).
-/
namespace Tokengeex
open Spec
variable {F : Type}

namespace LinesOf

theorem ofNat_ne {n : Nat} {c : Char} (h0 : c ≠ '\x00') (h : n ≠ c.toNat) : Char.ofNat n ≠ c := by
  intro e
  subst e
  by_cases hv : n.isValidChar
  · exact h (by simp [Char.ofNat, hv, Char.ofNatAux, Char.toNat])
  · exact h0 (by simp [Char.ofNat, hv]; rfl)

/-- A character that is neither a line feed nor a carriage return. -/
abbrev Inner (c : Char) : Prop := c ≠ '\n' ∧ c ≠ '\r'

theorem digitChar_inner (d : Nat) : Inner (Json.digitChar d) := by
  constructor
  · refine ofNat_ne (by decide) ?_
    rw [show ('\n').toNat = 10 from rfl]; omega
  · refine ofNat_ne (by decide) ?_
    rw [show ('\r').toNat = 13 from rfl]; omega

theorem hexChar_inner (d : Nat) : Inner (Json.hexChar d) := by
  unfold Json.hexChar
  split
  all_goals
    constructor
    · refine ofNat_ne (by decide) ?_
      rw [show ('\n').toNat = 10 from rfl]; omega
    · refine ofNat_ne (by decide) ?_
      rw [show ('\r').toNat = 13 from rfl]; omega

theorem escapeChar_inner (c : Char) : ∀ x ∈ Json.escapeChar c, Inner x := by
  intro x hx
  unfold Json.escapeChar at hx
  split_ifs at hx with h1 h2 h3 h4 h5 h6 h7 h8
  all_goals simp only [List.mem_cons, List.not_mem_nil, or_false] at hx
  · rcases hx with rfl | rfl <;> decide
  · rcases hx with rfl | rfl <;> decide
  · rcases hx with rfl | rfl <;> decide
  · rcases hx with rfl | rfl <;> decide
  · rcases hx with rfl | rfl <;> decide
  · rcases hx with rfl | rfl <;> decide
  · rcases hx with rfl | rfl <;> decide
  · rcases hx with rfl | rfl | rfl | rfl | rfl | rfl
    · decide
    · decide
    · decide
    · decide
    · exact hexChar_inner _
    · exact hexChar_inner _
  · subst hx; exact ⟨h5, h6⟩

theorem writeStr_inner (s : Str) : ∀ x ∈ Json.writeStr s, Inner x := by
  intro x hx
  simp only [Json.writeStr, List.cons_append, List.mem_cons, List.mem_append, List.mem_flatMap, List.not_mem_nil, or_false] at hx
  rcases hx with rfl | ⟨c, _, h⟩ | rfl
  · decide
  · exact escapeChar_inner c x h
  · decide

theorem digits_inner (ds : List Nat) : ∀ x ∈ ds.map Json.digitChar, Inner x := by
  intro x hx
  obtain ⟨d, _, rfl⟩ := List.mem_map.1 hx
  exact digitChar_inner d

theorem numText_inner (t : NumTok) : ∀ x ∈ Json.numText t, Inner x := by
  intro x hx
  obtain ⟨n, i, f, e⟩ := t
  unfold Json.numText at hx
  rcases List.mem_append.1 hx with hx | hx
  · rcases List.mem_append.1 hx with hx | hx
    · rcases List.mem_append.1 hx with hx | hx
      · cases n
        · simp at hx
        · simp only [if_true, List.mem_singleton] at hx
          subst hx; decide
      · exact digits_inner _ x hx
    · cases f with
      | none => simp at hx
      | some ds =>
        rcases List.mem_cons.1 hx with rfl | hx
        · decide
        · exact digits_inner _ x hx
  · rcases e with _ | ⟨_ | _, ds⟩
    · simp at hx
    · rcases List.mem_cons.1 hx with rfl | hx
      · decide
      · rcases List.mem_cons.1 hx with rfl | hx
        · decide
        · exact digits_inner _ x hx
    · rcases List.mem_cons.1 hx with rfl | hx
      · decide
      · exact digits_inner _ x hx

theorem scoreText_inner (N : NumText F) (x : F) : ∀ c ∈ scoreText N x, Inner c := by
  unfold scoreText
  cases N.print x with
  | none => decide
  | some t => exact numText_inner t

theorem write_num (N : NumText F) (style : Json.Style) (d : Nat) (x : F) : Json.write N style d (.num x) = scoreText N x := by
  rw [Json.write]; rfl

mutual
/-- Values written compactly have no line breaks. -/
theorem write_inner (N : NumText F) (d : Nat) : ∀ j : Json Str F, ∀ c ∈ Json.write N .compact d j, Inner c
  | .null => by rw [Json.write]; decide
  | .bool true => by rw [Json.write]; decide
  | .bool false => by rw [Json.write]; decide
  | .num x => by rw [write_num]; exact scoreText_inner N x
  | .str s => by rw [Json.write]; exact writeStr_inner s
  | .arr [] => by rw [Json.write]; decide
  | .arr (x :: xs) => by
    intro c hc
    rw [Json.write] at hc
    simp only [Json.Style.gap, List.cons_append, List.nil_append, List.append_nil, List.mem_cons, List.mem_append, List.not_mem_nil,
      or_false] at hc
    rcases hc with rfl | (hc | hc) | rfl
    · decide
    · exact write_inner N _ x c hc
    · exact writeItems_inner N _ xs c hc
    · decide
  | .obj [] => by rw [Json.write]; decide
  | .obj ((k, x) :: ms) => by
    intro c hc
    rw [Json.write] at hc
    simp only [Json.Style.gap, Json.Style.colon, List.cons_append, List.nil_append, List.append_nil, List.mem_cons, List.mem_append,
      List.not_mem_nil, or_false] at hc
    rcases hc with rfl | (((hc | rfl) | hc) | hc) | rfl
    · decide
    · exact writeStr_inner k c hc
    · decide
    · exact write_inner N _ x c hc
    · exact writeMembers_inner N _ ms c hc
    · decide

theorem writeItems_inner (N : NumText F) (d : Nat) : ∀ xs : List (Json Str F), ∀ c ∈ Json.writeItems N .compact d xs, Inner c
  | [] => by rw [Json.writeItems]; simp
  | x :: xs => by
    intro c hc
    rw [Json.writeItems] at hc
    simp only [Json.Style.gap, List.cons_append, List.mem_cons, List.mem_append, List.nil_append] at hc
    rcases hc with rfl | hc | hc
    · decide
    · exact write_inner N _ x c hc
    · exact writeItems_inner N _ xs c hc

theorem writeMembers_inner (N : NumText F) (d : Nat) : ∀ ms : List (Str × Json Str F), ∀ c ∈ Json.writeMembers N .compact d ms, Inner c
  | [] => by rw [Json.writeMembers]; simp
  | (k, x) :: ms => by
    intro c hc
    rw [Json.writeMembers] at hc
    simp only [Json.Style.gap, Json.Style.colon, List.cons_append, List.mem_cons, List.mem_append, List.not_mem_nil,
      or_false, List.nil_append] at hc
    rcases hc with rfl | ((hc | rfl) | hc) | hc
    · decide
    · exact writeStr_inner k c hc
    · decide
    · exact write_inner N _ x c hc
    · exact writeMembers_inner N _ ms c hc
end

/-! ## Counting line breaks -/

theorem count_zero {s : Str} (h : ∀ c ∈ s, Inner c) : s.count '\n' = 0 :=
  List.count_eq_zero.2 fun hm => (h _ hm).1 rfl

theorem count_gap (d : Nat) : (Json.Style.gap .pretty d).count '\n' = 1 := by
  simp [Json.Style.gap, List.count_replicate]

theorem count_colon : (Json.Style.colon .pretty).count '\n' = 0 := by decide

theorem count_items (N : NumText F) (d : Nat) : ∀ xs : List (Json Str F),
    (Json.writeItems N .pretty d xs).count '\n' = (xs.map fun x => 1 + (Json.write N .pretty (d + 1) x).count '\n').sum
  | [] => by rw [Json.writeItems]; rfl
  | x :: xs => by
    rw [Json.writeItems, List.cons_append, List.cons_append, List.count_cons_of_ne (by decide), List.count_append, List.count_append,
      count_gap, count_items N d xs]
    simp

theorem count_arr (N : NumText F) (d : Nat) (xs : List (Json Str F)) :
    (Json.write N .pretty d (.arr xs)).count '\n' = listLines (xs.map fun x => 1 + (Json.write N .pretty (d + 1) x).count '\n') := by
  cases xs with
  | nil => rw [Json.write]; rfl
  | cons x xs =>
    rw [Json.write, List.cons_append, List.cons_append, List.cons_append, List.cons_append, List.count_cons_of_ne (by decide)]
    simp only [List.count_append, count_gap, count_items, listLines, List.map_cons, reduceCtorEq, if_false, List.sum_cons]
    rw [show List.count '\n' [']'] = 0 from rfl]

theorem count_members (N : NumText F) (d : Nat) : ∀ ms : List (Str × Json Str F),
    (Json.writeMembers N .pretty d ms).count '\n' = (ms.map fun m => 1 + (Json.write N .pretty (d + 1) m.2).count '\n').sum
  | [] => by rw [Json.writeMembers]; rfl
  | (k, x) :: ms => by
    rw [Json.writeMembers]
    simp only [List.cons_append, List.count_append, List.count_cons_of_ne (show ',' ≠ '\n' by decide), count_gap, count_colon,
      count_zero (writeStr_inner k), count_members N d ms, List.map_cons, List.sum_cons, Nat.add_zero, Nat.add_assoc]

theorem count_obj (N : NumText F) (d : Nat) (ms : List (Str × Json Str F)) :
    (Json.write N .pretty d (.obj ms)).count '\n' = listLines (ms.map fun m => 1 + (Json.write N .pretty (d + 1) m.2).count '\n') := by
  cases ms with
  | nil => rw [Json.write]; rfl
  | cons m ms =>
    obtain ⟨k, x⟩ := m
    rw [Json.write]
    simp only [List.cons_append, List.count_append, List.count_cons_of_ne (show '{' ≠ '\n' by decide), count_gap, count_colon,
      count_zero (writeStr_inner k), count_members, listLines, List.map_cons, reduceCtorEq, if_false, List.sum_cons, Nat.add_zero, Nat.add_assoc]
    rw [show List.count '\n' ['}'] = 0 from rfl]

theorem count_str (N : NumText F) (d : Nat) (s : Str) : (Json.write N .pretty d (.str s)).count '\n' = 0 := by
  rw [Json.write]; exact count_zero (writeStr_inner s)

theorem count_num (N : NumText F) (d : Nat) (x : F) : (Json.write N .pretty d (.num x)).count '\n' = 0 := by
  rw [write_num]; exact count_zero (scoreText_inner N x)

theorem count_true (N : NumText F) (d : Nat) : (Json.write N .pretty d (.bool true)).count '\n' = 0 := by
  rw [Json.write]; decide

theorem count_token (N : NumText F) (d : Nat) (t : ScoredToken F) :
    1 + (Json.write N .pretty d (ScoredToken.toJson t)).count '\n' = tokenLines t := by
  unfold ScoredToken.toJson tokenLines
  rw [count_obj]
  cases h : (fromUtf8 t.value).isNone <;> cases t.keep <;>
    simp [listLines, count_str, count_num, count_true]

theorem count_processor (N : NumText F) (d : Nat) (p : Processor) :
    1 + (Json.write N .pretty d (Processor.toJson p)).count '\n' = processorLines p := by
  cases p <;> simp [Processor.toJson, count_obj, listLines, count_str, processorLines]

/-! ## One line -/

theorem lines_exist : ∀ s : Str, ∃ ls, Lines s ls
  | [] => ⟨[[]], by simp [Lines, List.intercalate]⟩
  | c :: s => by
    obtain ⟨ls, h0, h1, h2⟩ := lines_exist s
    cases ls with
    | nil => exact absurd rfl h0
    | cons l ls =>
      by_cases hc : c = '\n'
      · refine ⟨[] :: l :: ls, by simp, ?_, ?_⟩
        · rw [h1, hc]; simp [List.intercalate, List.intersperse]
        · intro x hx
          rcases List.mem_cons.1 hx with rfl | hx
          · simp
          · exact h2 x hx
      · refine ⟨(c :: l) :: ls, by simp, ?_, ?_⟩
        · rw [h1]
          cases ls <;> simp [List.intercalate, List.intersperse]
        · intro x hx
          rcases List.mem_cons.1 hx with rfl | hx
          · intro hm
            rcases List.mem_cons.1 hm with h | h
            · exact hc h.symm
            · exact h2 l (by simp) h
          · exact h2 x (by simp [hx])

theorem intercalate_append (sep : Str) : ∀ (a b : List Str), a ≠ [] → b ≠ [] →
    List.intercalate sep (a ++ b) = List.intercalate sep a ++ sep ++ List.intercalate sep b
  | [], _, h, _ => absurd rfl h
  | [x], [], _, h => absurd rfl h
  | [x], y :: b, _, _ => by simp [List.intercalate, List.intersperse]
  | x :: y :: a, b, _, hb => by
    have := intercalate_append sep (y :: a) b (by simp) hb
    simp only [List.intercalate, List.cons_append, List.intersperse, List.flatten_cons] at this ⊢
    rw [this]
    simp

theorem lines_append {p q : Str} {a b : List Str} (ha : Lines p a) (hb : Lines q b) : Lines (p ++ '\n' :: q) (a ++ b) := by
  obtain ⟨a0, a1, a2⟩ := ha
  obtain ⟨b0, b1, b2⟩ := hb
  refine ⟨by simp [a0], ?_, ?_⟩
  · rw [intercalate_append _ a b a0 b0, ← a1, ← b1]; simp
  · intro l hl
    rcases List.mem_append.1 hl with h | h
    · exact a2 l h
    · exact b2 l h

theorem lines_single {p : Str} (h : '\n' ∉ p) : Lines p [p] := ⟨by simp, by simp [List.intercalate], by simpa using h⟩

/-- How many lines there are. -/
theorem lines_length {s : Str} : ∀ {ls : List Str}, Lines s ls → ls.length = s.count '\n' + 1 := by
  intro ls
  induction ls generalizing s with
  | nil => intro h; exact absurd rfl h.1
  | cons l ls ih =>
    rintro ⟨_, h1, h2⟩
    have hl : l.count '\n' = 0 := List.count_eq_zero.2 (h2 l (by simp))
    cases ls with
    | nil => rw [h1]; simp [List.intercalate, hl]
    | cons m ls =>
      have := ih (s := List.intercalate ['\n'] (m :: ls)) ⟨by simp, rfl, fun x hx => h2 x (by simp [hx])⟩
      rw [List.length_cons, this, h1]
      rw [show l :: m :: ls = [l] ++ (m :: ls) from rfl, intercalate_append _ _ _ (by simp) (by simp)]
      simp only [List.count_append]
      rw [show List.intercalate ['\n'] [l] = l by simp [List.intercalate], hl, show List.count '\n' ['\n'] = 1 from rfl]
      omega

/-- The line with a score. -/
def scoreLine (N : NumText F) (x : F) : Str := "      \"score\": ".toList ++ scoreText N x

theorem scoreLine_lit : "      \"score\": ".toList =
    List.replicate 6 ' ' ++ (Json.writeStr "score".toList ++ Json.Style.colon .pretty) := by decide +kernel

theorem scoreLine_eq (N : NumText F) (x : F) :
    scoreLine N x = List.replicate 6 ' ' ++ (Json.writeStr "score".toList ++ (Json.Style.colon .pretty ++ scoreText N x)) := by
  unfold scoreLine
  generalize scoreText N x = X
  refine (congrArg (· ++ X) scoreLine_lit).trans ?_
  generalize Json.writeStr "score".toList = K
  simp only [List.append_assoc]

/-- An object whose second member is a number, up to the line of the number and after it. -/
theorem member_split (N : NumText F) (k k2 : Str) (j : Json Str F) (ms : List (Str × Json Str F)) :
    ∃ p tail q, (tail = [] ∨ tail = [',']) ∧ ∀ x : F,
      Json.write N .pretty 2 (.obj ((k, j) :: (k2, .num x) :: ms)) =
        p ++ '\n' :: ((List.replicate 6 ' ' ++ (Json.writeStr k2 ++ (Json.Style.colon .pretty ++ scoreText N x)) ++ tail) ++ '\n' :: q) := by
  have gap3 : Json.Style.gap .pretty (2 + 1) = '\n' :: List.replicate 6 ' ' := rfl
  have gap2 : Json.Style.gap .pretty 2 = '\n' :: List.replicate 4 ' ' := rfl
  have key : ∀ x : F, Json.write N .pretty 2 (.obj ((k, j) :: (k2, .num x) :: ms)) =
      ('{' :: Json.Style.gap .pretty (2 + 1) ++ Json.writeStr k ++ Json.Style.colon .pretty ++ Json.write N .pretty (2 + 1) j ++ [',']) ++
        '\n' :: (List.replicate 6 ' ' ++ (Json.writeStr k2 ++ (Json.Style.colon .pretty ++ scoreText N x)) ++
          (Json.writeMembers N .pretty 2 ms ++ ('\n' :: (List.replicate 4 ' ' ++ ['}'])))) := by
    intro x
    rw [Json.write, Json.writeMembers, write_num, gap2]
    generalize Json.writeStr k2 = K2
    generalize Json.writeStr k = K
    generalize scoreText N x = X
    generalize Json.write N .pretty (2 + 1) j = J
    generalize Json.writeMembers N .pretty 2 ms = MS
    generalize Json.Style.colon .pretty = C
    rw [gap3]
    simp only [List.append_assoc, List.cons_append, List.nil_append]
  cases ms with
  | nil =>
    refine ⟨'{' :: Json.Style.gap .pretty (2 + 1) ++ Json.writeStr k ++ Json.Style.colon .pretty ++ Json.write N .pretty (2 + 1) j ++ [','],
      [], List.replicate 4 ' ' ++ ['}'], Or.inl rfl, fun x => ?_⟩
    rw [key x, Json.writeMembers, List.append_nil, List.nil_append]
  | cons m ms =>
    obtain ⟨k', j'⟩ := m
    refine ⟨'{' :: Json.Style.gap .pretty (2 + 1) ++ Json.writeStr k ++ Json.Style.colon .pretty ++ Json.write N .pretty (2 + 1) j ++ [','],
      [','], List.replicate 6 ' ' ++ (Json.writeStr k' ++ (Json.Style.colon .pretty ++ (Json.write N .pretty (2 + 1) j' ++
      (Json.writeMembers N .pretty 2 ms ++ ('\n' :: (List.replicate 4 ' ' ++ ['}'])))))), Or.inr rfl, fun x => ?_⟩
    rw [key x, Json.writeMembers]
    congr 1
    rw [gap3]
    generalize Json.writeStr k2 = K2
    generalize Json.writeStr k' = K
    generalize scoreText N x = X
    generalize Json.write N .pretty (2 + 1) j' = J
    generalize Json.writeMembers N .pretty 2 ms = MS
    generalize Json.Style.colon .pretty = C
    simp only [List.append_assoc, List.cons_append, List.nil_append]

/-- A token of the vocabulary, up to the line of its score and after it. -/
theorem token_split (N : NumText F) (v : Token) (k : Bool) :
    ∃ p tail q, (tail = [] ∨ tail = [',']) ∧ ∀ x : F,
      Json.write N .pretty 2 (ScoredToken.toJson ⟨v, x, k⟩) = p ++ '\n' :: ((scoreLine N x ++ tail) ++ '\n' :: q) := by
  obtain ⟨p, tail, q, h0, h⟩ := member_split N "value".toList "score".toList
    (.str (match fromUtf8 v with | some s => s | none => Base64.encode v))
    ((if (fromUtf8 v).isNone then [("encoded".toList, .bool true)] else []) ++ (if k then [("keep".toList, .bool true)] else []))
  refine ⟨p, tail, q, h0, fun x => ?_⟩
  rw [scoreLine_eq, ← h x, ScoredToken.toJson]
  simp only [List.cons_append, List.nil_append]
  rfl

theorem items_append (N : NumText F) (d : Nat) : ∀ (l r : List (Json Str F)),
    Json.writeItems N .pretty d (l ++ r) = Json.writeItems N .pretty d l ++ Json.writeItems N .pretty d r
  | [], r => by rw [List.nil_append, show Json.writeItems N .pretty d [] = [] by rw [Json.writeItems], List.nil_append]
  | x :: l, r => by
    rw [List.cons_append, Json.writeItems, Json.writeItems, items_append N d l r]
    simp only [List.append_assoc]

/-- A list, up to one of its items and after it. -/
theorem arr_split (N : NumText F) (d : Nat) (l r : List (Json Str F)) :
    ∃ p q, ∀ j, Json.write N .pretty d (.arr (l ++ j :: r)) = p ++ (Json.write N .pretty (d + 1) j ++ q) := by
  cases l with
  | nil =>
    refine ⟨'[' :: Json.Style.gap .pretty (d + 1), Json.writeItems N .pretty d r ++ (Json.Style.gap .pretty d ++ [']']), fun j => ?_⟩
    rw [List.nil_append, Json.write]
    simp only [List.append_assoc, List.cons_append]
  | cons x l =>
    refine ⟨'[' :: Json.Style.gap .pretty (d + 1) ++ Json.write N .pretty (d + 1) x ++ Json.writeItems N .pretty d l ++
      (',' :: Json.Style.gap .pretty (d + 1)), Json.writeItems N .pretty d r ++ (Json.Style.gap .pretty d ++ [']']), fun j => ?_⟩
    rw [List.cons_append, Json.write, items_append, Json.writeItems]
    simp only [List.append_assoc, List.cons_append]

/-- The file of a tokenizer, up to the vocabulary and after it. -/
theorem file_split (N : NumText F) (specials : List Str) (ps : List Processor) :
    ∃ A, ∀ w : Tokenizer F, w.processors = ps → w.specialTokens = specials →
      Json.write N .pretty 0 w.toJson = A ++ (Json.write N .pretty 1 (.arr (w.model.vocab.map ScoredToken.toJson)) ++ ['\n', '}']) := by
  obtain ⟨A, hA⟩ : ∃ A, ∀ j : Json Str F, Json.write N .pretty 0 (.obj [("version".toList, .str Tokenizer.serializationVersion),
      ("special_tokens".toList, .arr (specials.map .str)),
      ("processors".toList, .arr (ps.map Processor.toJson)), ("vocab".toList, j)]) =
      A ++ (Json.write N .pretty (0 + 1) j ++ ['\n', '}']) := by
    generalize (Json.arr (specials.map .str) : Json Str F) = S
    generalize (Json.arr (ps.map Processor.toJson) : Json Str F) = R
    generalize (Json.str Tokenizer.serializationVersion : Json Str F) = V
    generalize "version".toList = k1
    generalize "special_tokens".toList = k2
    generalize "processors".toList = k3
    generalize "vocab".toList = k4
    refine ⟨'{' :: Json.Style.gap .pretty (0 + 1) ++ Json.writeStr k1 ++ Json.Style.colon .pretty ++ Json.write N .pretty (0 + 1) V ++
      (',' :: Json.Style.gap .pretty (0 + 1) ++ Json.writeStr k2 ++ Json.Style.colon .pretty ++ Json.write N .pretty (0 + 1) S) ++
      (',' :: Json.Style.gap .pretty (0 + 1) ++ Json.writeStr k3 ++ Json.Style.colon .pretty ++ Json.write N .pretty (0 + 1) R) ++
      (',' :: Json.Style.gap .pretty (0 + 1) ++ Json.writeStr k4 ++ Json.Style.colon .pretty), fun j => ?_⟩
    rw [Json.write, Json.writeMembers, Json.writeMembers, Json.writeMembers, Json.writeMembers,
      show Json.Style.gap .pretty 0 = ['\n'] from rfl]
    simp only [List.append_assoc, List.cons_append, List.nil_append]
  refine ⟨A, fun w h1 h2 => ?_⟩
  subst h1 h2
  exact hA _

/-- The last line of a token. -/
theorem token_last (N : NumText F) (t : ScoredToken F) :
    ∃ p, Json.write N .pretty 2 (ScoredToken.toJson t) = p ++ '\n' :: (List.replicate 4 ' ' ++ ['}']) := by
  have obj : ∀ (m : Str × Json Str F) ms, ∃ p, Json.write N .pretty 2 (.obj (m :: ms)) = p ++ '\n' :: (List.replicate 4 ' ' ++ ['}']) := by
    rintro ⟨k, x⟩ ms
    refine ⟨'{' :: Json.Style.gap .pretty (2 + 1) ++ Json.writeStr k ++ Json.Style.colon .pretty ++ Json.write N .pretty (2 + 1) x ++
      Json.writeMembers N .pretty 2 ms, ?_⟩
    rw [Json.write, List.append_assoc _ (Json.Style.gap .pretty 2), show Json.Style.gap .pretty 2 ++ ['}'] =
      '\n' :: (List.replicate 4 ' ' ++ ['}']) from rfl]
  exact obj _ _

/-- The items of a list that is extended. -/
theorem arr_extend (N : NumText F) (d : Nat) (l : List (Json Str F)) (x : Json Str F) :
    ∃ p, ∀ more, Json.write N .pretty d (.arr (l ++ x :: more)) =
      p ++ (Json.write N .pretty (d + 1) x ++ (Json.writeItems N .pretty d more ++ (Json.Style.gap .pretty d ++ [']']))) := by
  cases l with
  | nil =>
    refine ⟨'[' :: Json.Style.gap .pretty (d + 1), fun more => ?_⟩
    rw [List.nil_append, Json.write]
    simp only [List.append_assoc, List.cons_append]
  | cons y l =>
    refine ⟨'[' :: Json.Style.gap .pretty (d + 1) ++ Json.write N .pretty (d + 1) y ++ Json.writeItems N .pretty d l ++
      (',' :: Json.Style.gap .pretty (d + 1)), fun more => ?_⟩
    rw [List.cons_append, Json.write, items_append, Json.writeItems]
    simp only [List.append_assoc, List.cons_append]

end LinesOf
open LinesOf

/-- **C125** (one line) The text of a tokenizer is a single line: it contains no line feed and no carriage return, whatever
is in its tokens. -/
theorem C125_one_line (N : NumText F) (t : Tokenizer F) :
    Lines (t.toString N) [t.toString N] ∧ '\r' ∉ t.toString N :=
  ⟨lines_single fun h => (write_inner N 0 _ _ h).1 rfl, fun h => (write_inner N 0 _ _ h).2 rfl⟩

/-- **C125** (number of lines) How many lines the file of a tokenizer has: two braces, a line for the version, and for each of
the three lists the line of its name, the lines of its items, and the line of its closing bracket unless it is empty.  A
special token takes one line, whatever is in it. -/
theorem C125_lines (N : NumText F) (t : Tokenizer F) (ls : List Str) (h : Lines (t.fileContents N) ls) :
    ls.length = 6 + listLines (t.specialTokens.map fun _ => 1) + listLines (t.processors.map processorLines) +
      listLines (t.model.vocab.map tokenLines) := by
  have hv : (t.model.vocab.map ScoredToken.toJson).map (fun x => 1 + (Json.write N .pretty (1 + 1) x).count '\n') =
      t.model.vocab.map tokenLines := by
    rw [List.map_map]; exact List.map_congr_left fun t _ => count_token N _ t
  have hp : (t.processors.map Processor.toJson).map (fun x : Json Str F => 1 + (Json.write N .pretty (1 + 1) x).count '\n') =
      t.processors.map processorLines := by
    rw [List.map_map]; exact List.map_congr_left fun t _ => count_processor N _ t
  have hs : (t.specialTokens.map Json.str).map (fun x : Json Str F => 1 + (Json.write N .pretty (1 + 1) x).count '\n') =
      t.specialTokens.map fun _ => 1 := by
    rw [List.map_map]; exact List.map_congr_left fun s _ => by rw [Function.comp_apply, count_str]
  rw [lines_length h, Tokenizer.fileContents, Tokenizer.toJson, count_obj]
  simp only [List.map_cons, List.map_nil, count_str, count_arr, Nat.zero_add] at hv hp hs ⊢
  rw [hv, hp, hs, listLines]
  simp only [reduceCtorEq, if_false, List.sum_cons, List.sum_nil]
  omega

/-- **C125** (one score, one line) When two tokenizers differ only in the score of one token, their files differ in one line
at most, the one with this score. -/
theorem C125_score (N : NumText F) (t u : Tokenizer F) (l r : List (ScoredToken F)) (v : Token) (k : Bool) (x y : F)
    (ht : t.model.vocab = l ++ ⟨v, x, k⟩ :: r) (hu : u.model.vocab = l ++ ⟨v, y, k⟩ :: r)
    (hp : t.processors = u.processors) (hs : t.specialTokens = u.specialTokens) :
    ∃ before after comma, (comma = [] ∨ comma = [',']) ∧
      Lines (t.fileContents N) (before ++ ["      \"score\": ".toList ++ scoreText N x ++ comma] ++ after) ∧
      Lines (u.fileContents N) (before ++ ["      \"score\": ".toList ++ scoreText N y ++ comma] ++ after) := by
  obtain ⟨p, tail, q, htail, htok⟩ := token_split N v k
  obtain ⟨p', q', harr⟩ := arr_split N 1 (l.map ScoredToken.toJson) (r.map ScoredToken.toJson)
  obtain ⟨P, Q, hPQ⟩ : ∃ P Q, ∀ (z : F) (w : Tokenizer F), w.model.vocab = l ++ ⟨v, z, k⟩ :: r → w.processors = u.processors →
      w.specialTokens = u.specialTokens → w.fileContents N = P ++ '\n' :: ((scoreLine N z ++ tail) ++ '\n' :: Q) := by
    obtain ⟨A, hAB⟩ := file_split N u.specialTokens u.processors
    refine ⟨A ++ (p' ++ p), q ++ (q' ++ ['\n', '}']), fun z w hw hwp hws => ?_⟩
    rw [Tokenizer.fileContents, hAB w hwp hws, hw, List.map_append, List.map_cons, harr, htok]
    simp only [List.append_assoc, List.cons_append]
  have clean : ∀ z, '\n' ∉ scoreLine N z ++ tail := by
    intro z hm
    rcases List.mem_append.1 hm with hm | hm
    · rcases List.mem_append.1 hm with hm | hm
      · revert hm; decide
      · exact (scoreText_inner N z _ hm).1 rfl
    · rcases htail with rfl | rfl <;> simp at hm
  obtain ⟨before, hbefore⟩ := lines_exist P
  obtain ⟨after, hafter⟩ := lines_exist Q
  refine ⟨before, after, tail, htail, ?_, ?_⟩
  · rw [hPQ x t ht hp hs, List.append_assoc before]
    exact lines_append hbefore (lines_append (lines_single (clean x)) hafter)
  · rw [hPQ y u hu rfl rfl, List.append_assoc before]
    exact lines_append hbefore (lines_append (lines_single (clean y)) hafter)

/-- **C125** (added tokens) Adding base tokens leaves all lines as they were, except that the closing brace of the token that
was the last one gets a comma, and inserts lines after it. -/
theorem C125_added (N : NumText F) (t u : Tokenizer F) (more : List (ScoredToken F)) (hne : t.model.vocab ≠ []) (hmore : more ≠ [])
    (hu : u.model.vocab = t.model.vocab ++ more) (hp : u.processors = t.processors) (hs : u.specialTokens = t.specialTokens) :
    ∃ before added,
      Lines (t.fileContents N) (before ++ ["    }".toList] ++ ["  ]".toList, "}".toList]) ∧
      Lines (u.fileContents N) (before ++ ["    },".toList] ++ added ++ ["  ]".toList, "}".toList]) := by
  obtain ⟨l, x, hl⟩ : ∃ l x, t.model.vocab = l ++ [x] := ⟨_, _, (List.dropLast_concat_getLast hne).symm⟩
  obtain ⟨A, hA⟩ := file_split N t.specialTokens t.processors
  obtain ⟨p, hp'⟩ := token_last N x
  obtain ⟨q, hq⟩ := arr_extend N 1 (l.map ScoredToken.toJson) (ScoredToken.toJson x)
  obtain ⟨M, hM⟩ : ∃ M, Json.writeItems N .pretty 1 (more.map ScoredToken.toJson) = ',' :: '\n' :: M := by
    cases more with
    | nil => exact absurd rfl hmore
    | cons y more =>
      refine ⟨List.replicate 4 ' ' ++ (Json.write N .pretty (1 + 1) (ScoredToken.toJson y) ++
        Json.writeItems N .pretty 1 (more.map ScoredToken.toJson)), ?_⟩
      rw [List.map_cons, Json.writeItems, show Json.Style.gap .pretty (1 + 1) = '\n' :: List.replicate 4 ' ' from rfl]
      simp only [List.append_assoc, List.cons_append]
  have closing : Json.Style.gap .pretty 1 ++ [']'] ++ ['\n', '}'] = '\n' :: ("  ]".toList ++ '\n' :: "}".toList) := by decide +kernel
  have brace : List.replicate 4 ' ' ++ ['}'] = "    }".toList := by decide +kernel
  have brace' : List.replicate 4 ' ' ++ ['}'] ++ [','] = "    },".toList := by decide +kernel
  have lend : Lines ("  ]".toList ++ '\n' :: "}".toList) ["  ]".toList, "}".toList] :=
    lines_append (lines_single (by decide)) (lines_single (by decide))
  have hft : t.fileContents N = (A ++ (q ++ p)) ++ '\n' :: ("    }".toList ++ '\n' :: ("  ]".toList ++ '\n' :: "}".toList)) := by
    rw [Tokenizer.fileContents, hA t rfl rfl, hl, List.map_append, List.map_cons, List.map_nil, hq, Json.writeItems, hp', ← closing, ← brace]
    simp only [List.append_assoc, List.cons_append, List.nil_append]
  have hfu : u.fileContents N = (A ++ (q ++ p)) ++ '\n' :: ("    },".toList ++ '\n' :: (M ++ '\n' :: ("  ]".toList ++ '\n' :: "}".toList))) := by
    rw [Tokenizer.fileContents, hA u hp hs, hu, hl, List.append_assoc, List.map_append, List.cons_append, List.map_cons, List.nil_append,
      hq, hM, hp', ← closing, ← brace']
    simp only [List.append_assoc, List.cons_append, List.nil_append]
  obtain ⟨before, hbefore⟩ := lines_exist (A ++ (q ++ p))
  obtain ⟨added, hadded⟩ := lines_exist M
  refine ⟨before, added, ?_, ?_⟩
  · rw [hft, List.append_assoc before]
    exact lines_append hbefore (lines_append (lines_single (by decide)) lend)
  · rw [hfu, List.append_assoc _ added, List.append_assoc before]
    exact lines_append hbefore (lines_append (lines_single (p := "    },".toList) (by decide)) (lines_append hadded lend))

/-- The line counts of a concrete tokenizer: one special token with a line break in it, one processor, and three base tokens, one
of which is not UTF-8 and one of which is kept. -/
example (t : Tokenizer Int) (ht : t = Tokenizer.new (Model.from_ [⟨[97], -1, false⟩, ⟨[255], -2, false⟩, ⟨[98], -3, true⟩])
      [.unicode .nfc] ["a\nb".toList]) (ls : List Str) (h : Lines (t.fileContents intNumbers) ls) : ls.length = 28 := by
  rw [C125_lines intNumbers t ls h, ht]
  decide +kernel

/-- The same tokenizer with another score: the files differ in one line. -/
example (t u : Tokenizer Int)
    (ht : t = Tokenizer.new (Model.from_ [⟨[97], -1, false⟩, ⟨[255], -2, false⟩, ⟨[98], -3, true⟩]) [.unicode .nfc] ["a\nb".toList])
    (hu : u = Tokenizer.new (Model.from_ [⟨[97], -1, false⟩, ⟨[255], -7, false⟩, ⟨[98], -3, true⟩]) [.unicode .nfc] ["a\nb".toList]) :
    ∃ before after comma, (comma = [] ∨ comma = [',']) ∧
      Lines (t.fileContents intNumbers) (before ++ ["      \"score\": ".toList ++ scoreText intNumbers (-2) ++ comma] ++ after) ∧
      Lines (u.fileContents intNumbers) (before ++ ["      \"score\": ".toList ++ scoreText intNumbers (-7) ++ comma] ++ after) :=
  C125_score intNumbers t u [⟨[97], -1, false⟩] [⟨[98], -3, true⟩] [255] false (-2) (-7) (by subst ht; rfl) (by subst hu; rfl)
    (by subst ht hu; rfl) (by subst ht hu; rfl)

/-- The same tokenizer after `add_base_tokens`. -/
example (t : Tokenizer Int)
    (ht : t = Tokenizer.new (Model.from_ [⟨[97], -1, false⟩, ⟨[255], -2, false⟩]) [.unicode .nfc] ["a\nb".toList]) :
    ∃ before added,
      Lines (t.fileContents intNumbers) (before ++ ["    }".toList] ++ ["  ]".toList, "}".toList]) ∧
      Lines ((t.addBaseTokens [⟨[98, 10], -3, true⟩]).fileContents intNumbers)
        (before ++ ["    },".toList] ++ added ++ ["  ]".toList, "}".toList]) :=
  C125_added intNumbers t _ [⟨[98, 10], -3, true⟩] (by subst ht; decide) (by simp) (by subst ht; rfl) (by subst ht; rfl) (by subst ht; rfl)

/-- The text of the same tokenizer is one line. -/
example : (Tokenizer.new (Model.from_ [⟨[97], -1, false⟩, ⟨[10], -2, false⟩]) [.unicode .nfc] ["a\nb".toList] : Tokenizer Int).toString
    intNumbers = "{\"version\":\"2.0\",\"special_tokens\":[\"a\\nb\"],\"processors\":[{\"type\":\"unicode\",\"form\":\"nfc\"}],\"vocab\":[{\"value\":\"a\",\"score\":-1.0},{\"value\":\"\\n\",\"score\":-2.0}]}".toList := by
  decide +kernel

end Tokengeex

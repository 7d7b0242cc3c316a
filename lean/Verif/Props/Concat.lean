import Verif.Props.Locality
import Verif.Props.NBest
import Verif.Spec.Concat
/-
C106: encoding a text in pieces.
-/
namespace Tokengeex
open Spec ScoreOps
variable {F : Type} [ScoreOps F]

omit [ScoreOps F] in
theorem spells_apart {vocab : List (ScoredToken F)} {y : List UInt8} {ids : List Nat} : ∀ {x : List UInt8}, Apart vocab x y →
    Spells vocab ids (x ++ y) → ∃ pre suf, ids = pre ++ suf ∧ Spells vocab pre x ∧ Spells vocab suf y := by
  induction ids with
  | nil =>
    intro x _ h
    obtain ⟨rfl, rfl⟩ := List.append_eq_nil_iff.1 (spells_nil.1 h)
    exact ⟨[], [], rfl, spells_nil.2 rfl, spells_nil.2 rfl⟩
  | cons i ids ih =>
    intro x ha h
    obtain ⟨t, rest, h1, h2, h3⟩ := spells_cons.1 h
    have step : ∀ x', x = t.value ++ x' → rest = x' ++ y →
        ∃ pre suf, i :: ids = pre ++ suf ∧ Spells vocab pre x ∧ Spells vocab suf y := by
      rintro x' rfl rfl
      obtain ⟨pre, suf, rfl, h4, h5⟩ := ih (fun u hu p q hp hq e hh => ha u hu p q hp hq e
        ⟨hh.1.trans (List.suffix_append _ _), hh.2⟩) h2
      exact ⟨i :: pre, suf, rfl, spells_cons.2 ⟨t, x', h1, h4, rfl⟩, h5⟩
    rcases List.append_eq_append_iff.1 h3 with ⟨q, e1, e2⟩ | ⟨x', e1, e2⟩
    · by_cases hx : x = []
      · subst hx
        exact ⟨[], i :: ids, rfl, spells_nil.2 rfl, h⟩
      · by_cases hq : q = []
        · subst hq
          exact step [] (by rw [e1]; simp) (by rw [e2]; simp)
        · exact absurd ⟨List.suffix_refl _, e2 ▸ List.prefix_append _ _⟩ (ha t (List.mem_of_getElem? h1) x q hx hq e1)
    · exact step x' e1 e2

omit [ScoreOps F] in
theorem segmentable_apart {vocab : List (ScoredToken F)} {x y : List UInt8} (hx : Segmentable vocab x)
    (hy : Segmentable vocab y) : Segmentable vocab (x ++ y) := by
  obtain ⟨ps, rfl, hp⟩ := hx
  obtain ⟨qs, rfl, hq⟩ := hy
  refine ⟨ps ++ qs, by simp, ?_⟩
  intro p h
  rcases List.mem_append.1 h with h | h
  · exact hp p h
  · exact hq p h

theorem encode_canonical' {vocab : List (ScoredToken F)} {s : Str} {dropout : F} {rnd : Nat → F} {ids : List Nat}
    (h : (Model.from_ vocab).encode s dropout rnd = .ok ids) : Canonical vocab ids := fun i hi => by
  obtain ⟨v, h1, h2, _⟩ := C07_encode_canonical vocab s dropout rnd ids h i hi
  exact ⟨v, h1, h2⟩

/-- **C106** (joining) Two texts that can be encoded can be encoded together, whatever the vocabulary. -/
theorem C106_join (vocab : List (ScoredToken F)) (a b : Str) (dropout : F) (rnd : Nat → F) (hd : le dropout zero = true)
    (x y : List Nat) (ha : (Model.from_ vocab).encode a dropout rnd = .ok x)
    (hb : (Model.from_ vocab).encode b dropout rnd = .ok y) :
    ∃ ids, (Model.from_ vocab).encode (a ++ b) dropout rnd = .ok ids := by
  refine ((C03_encode_complete vocab (a ++ b) dropout rnd hd).1).2 ?_
  rw [enc_append]
  exact segmentable_apart (((C03_encode_complete vocab a dropout rnd hd).1).1 ⟨x, ha⟩)
    (((C03_encode_complete vocab b dropout rnd hd).1).1 ⟨y, hb⟩)

/-- **C106** (gain) In exact arithmetic the encoding of two texts together scores at least what their encodings score. -/
theorem C106_gain (R : ExactArith F) (vocab : List (ScoredToken F)) (a b : Str) (dropout : F) (rnd : Nat → F)
    (hd : le dropout zero = true) (x y ids : List Nat) (ha : (Model.from_ vocab).encode a dropout rnd = .ok x)
    (hb : (Model.from_ vocab).encode b dropout rnd = .ok y)
    (h : (Model.from_ vocab).encode (a ++ b) dropout rnd = .ok ids) :
    R.val (totalScore vocab x) + R.val (totalScore vocab y) ≤ R.val (totalScore vocab ids) := by
  have := C05_encode_optimal _ _ (exact_laws R) vocab (fun _ _ => trivial) (a ++ b) dropout rnd hd ids h (x ++ y) (by
    rw [enc_append]
    exact spells_append.2 ⟨_, _, (C01_encode_lossless vocab a dropout rnd x ha).2, (C01_encode_lossless vocab b dropout rnd y hb).2, rfl⟩) (by
    intro i hi
    rcases List.mem_append.1 hi with hi | hi
    · exact encode_canonical' ha i hi
    · exact encode_canonical' hb i hi)
  rw [exact_lt_false, exact_total R vocab (x ++ y), List.map_append, List.sum_append, ← exact_total, ← exact_total] at this
  exact this

/-- **C106** (in pieces) Where no token lies across the boundary of two texts, their encodings one after the other are the
encoding of the two together, in exact arithmetic. -/
theorem C106_pieces (R : ExactArith F) (vocab : List (ScoredToken F)) (a b : Str) (dropout : F) (rnd : Nat → F)
    (hd : le dropout zero = true) (hapart : Apart vocab (enc a) (enc b)) (ids : List Nat) :
    (Model.from_ vocab).encode (a ++ b) dropout rnd = .ok ids ↔
    ∃ x y, (Model.from_ vocab).encode a dropout rnd = .ok x ∧ (Model.from_ vocab).encode b dropout rnd = .ok y ∧
      ids = x ++ y := by
  have fwd : ∀ ids, (Model.from_ vocab).encode (a ++ b) dropout rnd = .ok ids →
      ∃ x y, (Model.from_ vocab).encode a dropout rnd = .ok x ∧ (Model.from_ vocab).encode b dropout rnd = .ok y ∧
        ids = x ++ y := by
    intro ids h
    have hs := (C01_encode_lossless vocab (a ++ b) dropout rnd ids h).2
    rw [enc_append] at hs
    obtain ⟨pre, suf, rfl, h1, h2⟩ := spells_apart hapart hs
    exact ⟨pre, suf, C99_prefix _ _ (exact_laws R) vocab (fun _ _ => trivial) (a ++ b) dropout dropout rnd rnd hd hd pre suf h a h1,
      C99_part R vocab (a ++ b) dropout dropout rnd rnd hd hd pre suf [] (by rw [List.append_nil]; exact h) b h2, rfl⟩
  refine ⟨fwd ids, ?_⟩
  rintro ⟨x, y, ha, hb, rfl⟩
  obtain ⟨ids', h'⟩ := C106_join vocab a b dropout rnd hd x y ha hb
  obtain ⟨x', y', ha', hb', rfl⟩ := fwd ids' h'
  rw [ha] at ha'
  rw [hb] at hb'
  cases ha'
  cases hb'
  exact h'

/-- **C106** (with rounding) With doubles (or any scores that obey the weak laws) the encoding of the two together begins with the
encoding of the first, what follows are ids that spell the second, and it exists exactly if both have encodings. -/
theorem C106_rounded (good tok : F → Prop) (laws : ScoreLaws F good tok) (vocab : List (ScoredToken F))
    (hgood : ∀ t ∈ vocab, tok t.score) (a b : Str) (dropout : F) (rnd : Nat → F)
    (hd : le dropout zero = true) (hapart : Apart vocab (enc a) (enc b)) :
    (∀ ids, (Model.from_ vocab).encode (a ++ b) dropout rnd = .ok ids →
      ∃ x y, (Model.from_ vocab).encode a dropout rnd = .ok x ∧ ids = x ++ y ∧ Spells vocab y (enc b)) ∧
    ((∃ ids, (Model.from_ vocab).encode (a ++ b) dropout rnd = .ok ids) ↔
      (∃ x, (Model.from_ vocab).encode a dropout rnd = .ok x) ∧ ∃ y, (Model.from_ vocab).encode b dropout rnd = .ok y) := by
  have fwd : ∀ ids, (Model.from_ vocab).encode (a ++ b) dropout rnd = .ok ids →
      ∃ x y, (Model.from_ vocab).encode a dropout rnd = .ok x ∧ ids = x ++ y ∧ Spells vocab y (enc b) := by
    intro ids h
    have hs := (C01_encode_lossless vocab (a ++ b) dropout rnd ids h).2
    rw [enc_append] at hs
    obtain ⟨pre, suf, rfl, h1, h2⟩ := spells_apart hapart hs
    exact ⟨pre, suf, C99_prefix _ _ laws vocab hgood (a ++ b) dropout dropout rnd rnd hd hd pre suf h a h1, rfl, h2⟩
  refine ⟨fwd, ?_, ?_⟩
  · rintro ⟨ids, h⟩
    obtain ⟨x, y, h1, rfl, h2⟩ := fwd ids h
    refine ⟨⟨x, h1⟩, ((C03_encode_complete vocab b dropout rnd hd).1).2 (segmentable_of_spells h2 ?_)⟩
    intro i hi
    exact encode_canonical' h i (by simp [hi])
  · rintro ⟨⟨x, h1⟩, y, h2⟩
    exact C106_join vocab a b dropout rnd hd x y h1 h2

omit [ScoreOps F] in
theorem apart_of_end {vocab : List (ScoredToken F)} {b : UInt8} (h : OnlyAtEnd vocab b) (x y : List UInt8) :
    Apart vocab (x ++ [b]) y := by
  rintro t ht p q hp hq e ⟨h1, h2⟩
  rcases List.suffix_concat_iff.1 h1 with rfl | ⟨p', rfl, _⟩
  · exact hp rfl
  · exact hq (h t ht p' q (by rw [e]; simp))

/-- **C106** (lines) If a byte, such as that of a line break, occurs in tokens only as the last byte, then a text made of pieces
that end with this byte is encoded piece by piece, in exact arithmetic. -/
theorem C106_lines (R : ExactArith F) (vocab : List (ScoredToken F)) (b : UInt8) (hb : OnlyAtEnd vocab b) (dropout : F)
    (rnd : Nat → F) (hd : le dropout zero = true) (lines : List Str) (hl : ∀ l ∈ lines, ∃ p, enc l = p ++ [b])
    (last : Str) (ids : List Nat) :
    (Model.from_ vocab).encode (lines.flatten ++ last) dropout rnd = .ok ids ↔
    ∃ xs y, List.Forall₂ (fun l x => (Model.from_ vocab).encode l dropout rnd = .ok x) lines xs ∧
      (Model.from_ vocab).encode last dropout rnd = .ok y ∧ ids = xs.flatten ++ y := by
  induction lines generalizing ids with
  | nil =>
    constructor
    · intro h; exact ⟨[], ids, .nil, h, rfl⟩
    · rintro ⟨xs, y, h1, h2, rfl⟩
      cases h1
      exact h2
  | cons l lines ih =>
    obtain ⟨p, hp⟩ := hl l (by simp)
    have ih := fun ids => ih (fun m hm => hl m (by simp [hm])) ids
    rw [List.flatten_cons, List.append_assoc,
      C106_pieces R vocab l (lines.flatten ++ last) dropout rnd hd (by rw [hp]; exact apart_of_end hb p _) ids]
    constructor
    · rintro ⟨x, y, h1, h2, rfl⟩
      obtain ⟨xs, y', h3, h4, rfl⟩ := (ih y).1 h2
      exact ⟨x :: xs, y', .cons h1 h3, h4, by simp⟩
    · rintro ⟨xs, y, h1, h2, rfl⟩
      cases h1 with
      | cons h3 h4 => exact ⟨_, _, h3, (ih _).2 ⟨_, _, h4, h2, rfl⟩, by simp⟩

/-- Non-vacuity: line breaks occur only at ends of tokens, and two lines and a rest are encoded one by one. -/
def lineVocab : List (ScoredToken Int) :=
  [⟨[97], -3, false⟩, ⟨[98], -3, false⟩, ⟨[10], -3, false⟩, ⟨[97, 98], -4, false⟩, ⟨[98, 10], -2, false⟩]

example : (Model.from_ lineVocab).encode "ab\na\nab".toList 0 exRnd = .ok ([[0, 4], [0, 2]].flatten ++ [3]) := by
  refine (C106_lines intExact lineVocab 10 ?_ 0 exRnd (by decide) ["ab\n".toList, "a\n".toList] ?_ "ab".toList _).2
    ⟨[[0, 4], [0, 2]], [3], .cons (by decide) (.cons (by decide) .nil), by decide, rfl⟩
  · intro t ht p q e
    simp only [lineVocab, List.mem_cons, List.not_mem_nil, or_false] at ht
    rcases ht with rfl | rfl | rfl | rfl | rfl <;>
      (rcases p with _ | ⟨p1, _ | ⟨p2, _ | ⟨p3, p⟩⟩⟩ <;> simp_all)
  · intro l hl
    simp only [List.mem_cons, List.not_mem_nil, or_false] at hl
    rcases hl with rfl | rfl
    · exact ⟨[97, 98], by decide⟩
    · exact ⟨[97], by decide⟩

/-- Non-vacuity of the gain, which can be strict where a token lies across the boundary. -/
example : (Model.from_ lineVocab).encode "a".toList 0 exRnd = .ok [0] ∧ (Model.from_ lineVocab).encode "b".toList 0 exRnd = .ok [1] ∧
    (Model.from_ lineVocab).encode ("a".toList ++ "b".toList) 0 exRnd = .ok [3] ∧
    totalScore lineVocab [0] + totalScore lineVocab [1] < totalScore lineVocab [3] := by decide

/-- **C106** (what does not hold) Without exact arithmetic the second part need not be encoded as by itself, even where no token
lies across the boundary: this is so with doubles. -/
theorem C106_pieces_false : (∀ t ∈ absorbed, Finite t.score) ∧ Apart absorbed (enc "x".toList) (enc "ab".toList) ∧
    (Model.from_ absorbed).encode ("x".toList ++ "ab".toList) (.num false 0) (fun _ => .num false 0) = .ok [0, 3] ∧
    (Model.from_ absorbed).encode "x".toList (.num false 0) (fun _ => .num false 0) = .ok [0] ∧
    (Model.from_ absorbed).encode "ab".toList (.num false 0) (fun _ => .num false 0) = .ok [1, 2] := by
  refine ⟨C99_part_false.1, ?_, by decide +kernel, by decide +kernel, by decide +kernel⟩
  rintro t ht p q hp hq e ⟨h1, h2⟩
  have hp' : p = [120] := by
    rcases List.suffix_concat_iff.1 (show p <:+ [] ++ [120] from h1) with rfl | ⟨p', rfl, h3⟩
    · exact absurd rfl hp
    · rw [List.suffix_nil.1 h3]; rfl
  subst hp'
  have : t.value ∈ [[120], [97], [98], [97, 98]] := by
    simp only [absorbed, List.mem_cons, List.not_mem_nil, or_false] at ht
    rcases ht with rfl | rfl | rfl | rfl <;> simp
  rw [e] at this
  simp at this
  exact hq this

end Tokengeex

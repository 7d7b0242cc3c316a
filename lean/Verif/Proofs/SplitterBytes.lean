import Verif.Model.SplitterBytes
import Verif.Proofs.Utf8
/-
The splitter on bytes does what the splitter on characters does, and never slices inside a character.
-/
namespace Tokengeex
namespace SplitterBytes

theorem encodeChar_shape (c : Char) : ∃ b tl, String.utf8EncodeChar c = b :: tl ∧ isCont b = false ∧ ∀ x ∈ tl, isCont x = true := by
  have hv := char_valid c
  have hn : ∀ {b : UInt8}, (b.toNat < 128 ∨ 191 < b.toNat) → isCont b = false := by
    intro b h
    rw [Bool.eq_false_iff, ne_eq, isCont_iff]
    omega
  rcases encodeChar_cases c with ⟨h, b, e, hb⟩ | ⟨h1, h2, b0, b1, e, hb0, hb1⟩ | ⟨h1, h2, b0, b1, b2, e, hb0, hb1, hb2⟩ |
    ⟨h1, b0, b1, b2, b3, e, hb0, hb1, hb2, hb3⟩
  · exact ⟨b, [], e, hn (by omega), by simp⟩
  · refine ⟨b0, [b1], e, hn (by omega), ?_⟩
    simp only [List.mem_cons, List.not_mem_nil, or_false, forall_eq, isCont_iff]
    omega
  · refine ⟨b0, [b1, b2], e, hn (by omega), ?_⟩
    simp only [List.mem_cons, List.not_mem_nil, or_false, forall_eq_or_imp, forall_eq, isCont_iff]
    omega
  · refine ⟨b0, [b1, b2, b3], e, hn (by omega), ?_⟩
    simp only [List.mem_cons, List.not_mem_nil, or_false, forall_eq_or_imp, forall_eq, isCont_iff]
    omega

theorem boundary_enc (a b : Str) : isCharBoundary (enc a ++ enc b) (enc a).length = true := by
  unfold isCharBoundary
  by_cases h0 : (enc a).length = 0
  · rw [if_pos h0]
  · rw [if_neg h0, List.getElem?_append_right (Nat.le_refl _), Nat.sub_self]
    cases b with
    | nil => simp
    | cons c b =>
      obtain ⟨x, tl, e, hx, -⟩ := encodeChar_shape c
      rw [enc_cons, e]
      simp [hx]

theorem sliceFrom_enc (a b : Str) : sliceFrom (enc (a ++ b)) (enc a).length = .ok (enc b) := by
  rw [sliceFrom, enc_append, boundary_enc, if_pos rfl, List.drop_left]

theorem sliceTo_enc (a b : Str) : sliceTo (enc (a ++ b)) (enc a).length = .ok (enc a) := by
  rw [sliceTo, enc_append, boundary_enc, if_pos rfl, List.take_left]

theorem enc_prefix_iff (t s : Str) : (enc t).isPrefixOf (enc s) = t.isPrefixOf s := by
  rw [Bool.eq_iff_iff, List.isPrefixOf_iff_prefix, List.isPrefixOf_iff_prefix]
  constructor
  · rintro ⟨rest, h⟩
    have := congrArg lossy h
    rw [lossy_enc_append, lossy_enc] at this
    exact ⟨_, this⟩
  · rintro ⟨rest, rfl⟩
    exact ⟨enc rest, (enc_append _ _).symm⟩

theorem matchAtB_enc (specials : List Str) (suffix : Str) : matchAtB (specials.map enc) (enc suffix) =
    (matchAt specials suffix).map enc := by
  unfold matchAtB matchAt
  induction specials with
  | nil => rfl
  | cons t specials ih =>
    rw [List.map_cons, List.find?_cons, List.find?_cons, enc_prefix_iff]
    cases t.isPrefixOf suffix with
    | true => rfl
    | false => exact ih

theorem scanB_conts (specials : List (List UInt8)) (input : List UInt8) (cursor len : Nat) (rest : List UInt8) :
    ∀ (tl : List UInt8) (i : Nat), (∀ x ∈ tl, isCont x = true) →
    scanB specials input cursor len i (tl ++ rest) = scanB specials input cursor len (i + tl.length) rest := by
  intro tl
  induction tl with
  | nil => intros; rfl
  | cons x tl ih =>
    intro i h
    rw [List.cons_append, scanB, if_pos (h x (by simp)), ih _ fun y hy => h y (List.mem_cons_of_mem _ hy), List.length_cons]
    congr 1
    omega

/-- Read from a prefix of the whole text on, the scan finds the item the scan on characters finds, and moves the cursor
behind it. -/
theorem scanB_enc (specials : List Str) (read input : Str) (hne : input ≠ []) : ∀ (todo done : Str), input = done ++ todo →
    ∃ item left, splitScan specials input done.length todo = (item, left) ∧ ∃ consumed, input = consumed ++ left ∧
      scanB (specials.map enc) (enc input) (enc read).length (enc (read ++ input)).length (enc done).length (enc todo) =
        .ok ((enc item.1, item.2), (enc (read ++ consumed)).length) := by
  intro todo
  induction todo with
  | nil =>
    intro done h
    refine ⟨(input, false), [], rfl, input, by simp, ?_⟩
    rw [enc_nil, scanB, if_pos]
    obtain ⟨c, cs, rfl⟩ := List.exists_cons_of_ne_nil hne
    have := utf8EncodeChar_length_pos c
    rw [enc_append, enc_cons, List.length_append, List.length_append]
    omega
  | cons c cs ih =>
    intro done h
    obtain ⟨b, tl, e, hb, htl⟩ := encodeChar_shape c
    rw [splitScan, enc_cons, e, List.cons_append, scanB, if_neg (by rw [hb]; decide)]
    have hs : sliceFrom (enc input) (enc done).length = .ok (enc (c :: cs)) := by rw [h, sliceFrom_enc]
    rw [hs]
    simp only [bind, Except.bind]
    rw [matchAtB_enc]
    cases hm : matchAt specials (c :: cs) with
    | some t =>
      dsimp only [Option.map_some]
      have hpre : t <+: c :: cs := by
        have := List.find?_some hm
        exact List.isPrefixOf_iff_prefix.1 this
      cases done with
      | nil =>
        rw [if_neg (by simp), if_neg (by simp)]
        obtain ⟨rest, hr⟩ := hpre
        have hi : input = t ++ rest := by rw [h, List.nil_append, hr]
        refine ⟨(input.take t.length, true), input.drop t.length, rfl, t, by rw [hi]; simp, ?_⟩
        have : sliceTo (enc input) (enc t).length = .ok (enc t) := by rw [hi, sliceTo_enc]
        rw [this]
        simp only [pure, Except.pure]
        rw [hi, List.take_left, enc_append read t, List.length_append]
      | cons d ds =>
        have hp := utf8EncodeChar_length_pos d
        rw [if_pos (by simp), if_pos (by rw [enc_cons, List.length_append]; omega)]
        refine ⟨(input.take (d :: ds).length, false), input.drop (d :: ds).length, rfl, d :: ds, ?_, ?_⟩
        · rw [h, List.drop_left]
        · have : sliceTo (enc input) (enc (d :: ds)).length = .ok (enc (d :: ds)) := by rw [h, sliceTo_enc]
          rw [this]
          simp only [pure, Except.pure]
          rw [h, List.take_left, enc_append read (d :: ds), List.length_append]
    | none =>
      dsimp only [Option.map_none]
      rw [scanB_conts _ _ _ _ _ _ _ htl]
      have hl : (enc done).length + 1 + tl.length = (enc (done ++ [c])).length := by
        rw [enc_append, enc_cons, e, enc_nil]
        simp
        omega
      have := ih (done ++ [c]) (by rw [h]; simp)
      rw [List.length_append, List.length_singleton] at this
      rw [hl]
      exact this

theorem nextB_enc (specials : List Str) (read input : Str) :
    nextB (specials.map enc) (enc (read ++ input)) (enc read).length = .ok ((splitNext specials input).map fun r =>
      ((enc r.1.1, r.1.2), (enc (read ++ input)).length - (enc r.2).length)) ∧
    ∀ item left, splitNext specials input = some (item, left) → ∃ consumed, input = consumed ++ left := by
  cases input with
  | nil =>
    constructor
    · rw [nextB, List.append_nil, if_pos (Nat.le_refl _)]
      rfl
    · intro item left h
      cases h
  | cons c cs =>
    have hpos := utf8EncodeChar_length_pos c
    obtain ⟨item, left, h1, consumed, h2, h3⟩ := scanB_enc specials read (c :: cs) (by simp) (c :: cs) [] rfl
    constructor
    · rw [nextB, if_neg (by rw [enc_append, enc_cons, List.length_append, List.length_append]; omega), sliceFrom_enc]
      simp only [bind, Except.bind]
      rw [List.length_nil, enc_nil, List.length_nil] at *
      rw [h3, splitNext, if_neg (by simp), h1]
      simp only [Except.map, Option.map_some]
      congr 3
      rw [h2, ← List.append_assoc, enc_append (read ++ consumed), List.length_append]
      omega
    · intro item' left' h
      rw [splitNext, if_neg (by simp)] at h
      rw [List.length_nil] at h1
      rw [h1] at h
      cases h
      exact ⟨consumed, h2⟩

theorem runB_enc (specials : List Str) : ∀ (fuel : Nat) (read input : Str),
    runB (specials.map enc) (enc (read ++ input)) fuel (enc read).length =
      match splitAll specials fuel input with
      | none => .error .diverge
      | some pieces => .ok (pieces.map fun p => (enc p.1, p.2)) := by
  intro fuel
  induction fuel with
  | zero => intros; rfl
  | succ fuel ih =>
    intro read input
    obtain ⟨h1, h2⟩ := nextB_enc specials read input
    rw [runB, splitAll, h1]
    cases hn : splitNext specials input with
    | none => rfl
    | some r =>
      obtain ⟨item, left⟩ := r
      obtain ⟨consumed, rfl⟩ := h2 item left hn
      simp only [bind, Except.bind, Option.map_some]
      have : (enc (read ++ (consumed ++ left))).length - (enc left).length = (enc (read ++ consumed)).length := by
        rw [← List.append_assoc, enc_append (read ++ consumed), List.length_append]
        omega
      rw [this, ← List.append_assoc, ih (read ++ consumed) left]
      cases splitAll specials fuel left with
      | none => rfl
      | some pieces => rfl

theorem encodeLoopB_enc {F : Type} [ScoreOps F] (norm : UnicodeForm → Str → Str) (t : Tokenizer F) (dropout : F)
    (rnd : Nat → F) : ∀ (fuel : Nat) (read input : Str) (k : Nat) (ids : List TokenID),
    encodeLoopB norm t dropout rnd (enc (read ++ input)) fuel (enc read).length k ids =
      t.encodeLoop norm dropout rnd fuel input k ids := by
  intro fuel
  induction fuel with
  | zero => intros; rfl
  | succ fuel ih =>
    intro read input k ids
    obtain ⟨h1, h2⟩ := nextB_enc t.specialTokens read input
    rw [encodeLoopB, Tokenizer.encodeLoop, h1]
    cases hn : splitNext t.specialTokens input with
    | none => rfl
    | some r =>
      obtain ⟨item, left⟩ := r
      obtain ⟨consumed, rfl⟩ := h2 item left hn
      simp only [bind, Except.bind, Option.map_some]
      have : (enc (read ++ (consumed ++ left))).length - (enc left).length = (enc (read ++ consumed)).length := by
        rw [← List.append_assoc, enc_append (read ++ consumed), List.length_append]
        omega
      rw [this, fromUtf8_enc, ← List.append_assoc]
      simp only
      cases t.encodePiece norm item dropout fun j => rnd (k + j) with
      | error e => rfl
      | ok v => exact ih (read ++ consumed) left _ _

end SplitterBytes
end Tokengeex

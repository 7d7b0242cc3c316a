import Verif.Model.Messages
import Verif.Proofs.IntNumbers
import Verif.Props.Tokenizer
import Verif.Props.Python
/-
When encoding with a tokenizer fails, and what the message says (C103).
-/
namespace Tokengeex
open Spec Model ScoreOps Tokenizer
variable {F : Type}

theorem digitChar_toNat {d : Nat} (h : d < 10) : (Json.digitChar d).toNat = 48 + d :=
  (by decide : ∀ d < 10, (Json.digitChar d).toNat = 48 + d) d h

theorem digitChar_inj {d e : Nat} (hd : d < 10) (he : e < 10) (h : Json.digitChar d = Json.digitChar e) : d = e := by
  have := congrArg Char.toNat h
  rw [digitChar_toNat hd, digitChar_toNat he] at this
  omega

theorem showNat_digit {n : Nat} : ∀ c ∈ showNat n, 48 ≤ c.toNat ∧ c.toNat < 58 := by
  intro c hc
  obtain ⟨d, hd, rfl⟩ := List.mem_map.1 hc
  have := (decimal_digits n).1 d hd
  rw [digitChar_toNat this]
  omega

theorem map_digits_inj : ∀ {a b : List Nat}, (∀ d ∈ a, d < 10) → (∀ d ∈ b, d < 10) → a.map Json.digitChar = b.map Json.digitChar → a = b
  | [], [], _, _, _ => rfl
  | [], _ :: _, _, _, h => by simp at h
  | _ :: _, [], _, _, h => by simp at h
  | x :: a, y :: b, ha, hb, h => by
    simp only [List.map_cons, List.cons.injEq] at h
    rw [digitChar_inj (ha x (by simp)) (hb y (by simp)) h.1,
      map_digits_inj (fun d hd => ha d (by simp [hd])) (fun d hd => hb d (by simp [hd])) h.2]

theorem showNat_inj {n m : Nat} (h : showNat n = showNat m) : n = m := by
  have := map_digits_inj (decimal_digits n).1 (decimal_digits m).1 h
  rw [← (decimal_digits n).2.2.2, this, (decimal_digits m).2.2.2]

/-- Digits up to a character that is not a digit. -/
theorem showNat_append_inj {n m : Nat} {c : Char} {x y : Str} (hc : ¬ (48 ≤ c.toNat ∧ c.toNat < 58))
    (h : showNat n ++ c :: x = showNat m ++ c :: y) : n = m ∧ x = y := by
  have key : ∀ (a b : Str), (∀ c ∈ a, 48 ≤ c.toNat ∧ c.toNat < 58) → (∀ c ∈ b, 48 ≤ c.toNat ∧ c.toNat < 58) →
      a ++ c :: x = b ++ c :: y → a = b ∧ x = y := by
    intro a
    induction a with
    | nil =>
      intro b _ hb h
      cases b with
      | nil => simpa using h
      | cons d b =>
        simp only [List.nil_append, List.cons_append, List.cons.injEq] at h
        exact absurd (h.1 ▸ hb d (by simp)) hc
    | cons d a ih =>
      intro b ha hb h
      cases b with
      | nil =>
        simp only [List.nil_append, List.cons_append, List.cons.injEq] at h
        exact absurd (h.1 ▸ ha d (by simp)) hc
      | cons e b =>
        simp only [List.cons_append, List.cons.injEq] at h
        obtain ⟨h1, h2⟩ := ih b (fun c hc => ha c (by simp [hc])) (fun c hc => hb c (by simp [hc])) h.2
        exact ⟨by rw [h.1, h1], h2⟩
  obtain ⟨h1, h2⟩ := key _ _ showNat_digit showNat_digit h
  exact ⟨showNat_inj h1, h2⟩

/-- **C103** (messages) The message of an error of encoding or decoding determines the error: its kind and its numbers.  The
same holds for the debugging format. -/
theorem C103_message (a b : Err) (text : Str) :
    (a.display = some text → b.display = some text → a = b) ∧ (a.debug = some text → b.debug = some text → a = b) := by
  have ne1 : ∀ x y : Str, "no path to position ".toList ++ x ≠ "token id ".toList ++ y := by
    intro x y h; simp at h
  have ne2 : ∀ x y : Str, "NoPath(".toList ++ x ≠ "TokenIdOutOfBounds(".toList ++ y := by
    intro x y h; simp at h
  constructor
  · intro ha hb
    have h := ha.trans hb.symm
    cases a <;> cases b <;> simp only [Err.display, Option.some.injEq, reduceCtorEq] at h ha hb
    · rw [List.append_assoc, List.append_assoc, List.append_cancel_left_eq] at h
      obtain ⟨h1, h2⟩ := showNat_append_inj (by decide) h
      rw [h1, showNat_inj h2]
    · rw [List.append_assoc, List.append_assoc] at h; exact absurd h (ne1 _ _)
    · rw [List.append_assoc, List.append_assoc] at h; exact absurd h.symm (ne1 _ _)
    · rw [List.append_assoc, List.append_assoc, List.append_cancel_left_eq] at h
      rw [(showNat_append_inj (c := ' ') (x := "is out of bounds".toList) (y := "is out of bounds".toList) (by decide) h).1]
  · intro ha hb
    have h := ha.trans hb.symm
    cases a <;> cases b <;> simp only [Err.debug, Option.some.injEq, reduceCtorEq] at h ha hb
    · simp only [List.append_assoc, List.append_cancel_left_eq] at h
      obtain ⟨h1, h2⟩ := showNat_append_inj (c := ',') (by decide) h
      obtain ⟨h3, _⟩ := showNat_append_inj (c := ')') (by decide) (List.cons.inj h2).2
      rw [h1, h3]
    · simp only [List.append_assoc] at h; exact absurd h (ne2 _ _)
    · simp only [List.append_assoc] at h; exact absurd h.symm (ne2 _ _)
    · simp only [List.append_assoc, List.append_cancel_left_eq] at h
      rw [(showNat_append_inj (c := ')') (by decide) h).1]

variable [ScoreOps F]

/-- **C103** (encode) Without dropout, `encode` fails exactly if some ordinary piece of the text, processed, cannot be cut into
tokens.  The error then has twice the number of bytes of the first such piece. -/
theorem C103_encode (norm : UnicodeForm → Str → Str) (vocab : List (ScoredToken F)) (ps : List Processor)
    (specials : List Str) (ops : List (Op F)) (hne : [] ∉ (build vocab ps specials ops).specialTokens) (s : Str) (dropout : F)
    (rnd : Nat → F) (hd : le dropout zero = true) :
    let t := build vocab ps specials ops
    let bytes (piece : Str × Bool) := enc (ps.foldl (fun s p => p.preprocess norm s) piece.1)
    ∃ pieces, IsSplit t.specialTokens s pieces ∧
      (((∃ ids, t.encode norm s dropout rnd = .ok ids) ∧
          ∀ p ∈ pieces, p.2 = false → Segmentable t.model.vocab (bytes p)) ∨
       ∃ before p after, pieces = before ++ p :: after ∧ p.2 = false ∧ ¬ Segmentable t.model.vocab (bytes p) ∧
          (∀ q ∈ before, q.2 = false → Segmentable t.model.vocab (bytes q)) ∧
          t.encode norm s dropout rnd = .error (.noPath (bytes p).length (bytes p).length)) := by
  intro t bytes
  have hw : t.WF := wf_build vocab ps specials ops
  have hps : t.processors = ps := (build_spec vocab ps specials ops).2.1
  obtain ⟨pieces, h1, h2⟩ := encodeFuel_eq norm t hne dropout rnd s (s.length + 1) (by omega)
  refine ⟨pieces, h1, ?_⟩
  have hspecial : ∀ p ∈ pieces, p.2 = true → p.1 ∈ t.specialTokens := by
    rintro ⟨x, b⟩ hp hb
    simp only at hb
    subst hb
    obtain ⟨pre, post, e⟩ := List.append_of_mem hp
    exact (h1.special pre x post e).mem
  have key : ∀ (l : List (Str × Bool)) (k : Nat) (acc : List Nat), (∀ p ∈ l, p.2 = true → p.1 ∈ t.specialTokens) →
      ((∃ ids, runPieces norm t dropout rnd l k acc = .ok ids) ∧ ∀ p ∈ l, p.2 = false → Segmentable t.model.vocab (bytes p)) ∨
       ∃ before p after, l = before ++ p :: after ∧ p.2 = false ∧ ¬ Segmentable t.model.vocab (bytes p) ∧
          (∀ q ∈ before, q.2 = false → Segmentable t.model.vocab (bytes q)) ∧
          runPieces norm t dropout rnd l k acc = .error (.noPath (bytes p).length (bytes p).length) := by
    intro l
    induction l with
    | nil => intro k acc _; exact .inl ⟨⟨acc, rfl⟩, by simp⟩
    | cons item l ih =>
      intro k acc hl
      rw [runPieces]
      by_cases hb : item.2 = true
      · obtain ⟨i, hi⟩ := Option.isSome_iff_exists.1 ((hw.isSome_iff item.1).2 (hl item (by simp) hb))
        have e : t.encodePiece norm item dropout (fun j => rnd (k + j)) = .ok ([t.model.vocabSize + i], 0) := by
          rw [encodePiece, if_pos hb, hi]
        rw [e, res_bind_ok]
        rcases ih (k + 0) (acc ++ [t.model.vocabSize + i]) (fun p hp => hl p (by simp [hp])) with
          ⟨h3, h4⟩ | ⟨before, p, after, h3, h4, h5, h6, h7⟩
        · refine .inl ⟨h3, ?_⟩
          intro p hp hp'
          rcases List.mem_cons.1 hp with rfl | hp
          · rw [hb] at hp'; simp at hp'
          · exact h4 p hp hp'
        · refine .inr ⟨item :: before, p, after, by rw [h3]; rfl, h4, h5, ?_, h7⟩
          intro q hq hq'
          rcases List.mem_cons.1 hq with rfl | hq
          · rw [hb] at hq'; simp at hq'
          · exact h6 q hq hq'
      · have hb' : item.2 = false := by simpa using hb
        have e : t.encodePiece norm item dropout (fun j => rnd (k + j)) =
            t.model.encodeR (ps.foldl (fun s p => p.preprocess norm s) item.1) dropout (fun j => rnd (k + j)) := by
          rw [encodePiece, if_neg hb, preprocess, hps]
        rw [e]
        have hc := C03_encode_complete t.model.vocab (ps.foldl (fun s p => p.preprocess norm s) item.1) dropout
          (fun j => rnd (k + j)) hd
        rw [← hw.model, Model.encode] at hc
        cases hr : t.model.encodeR (ps.foldl (fun s p => p.preprocess norm s) item.1) dropout (fun j => rnd (k + j)) with
        | error err =>
          rw [hr] at hc
          have hns : ¬ Segmentable t.model.vocab (bytes item) := by
            intro hseg
            obtain ⟨ids, h⟩ := hc.1.2 hseg
            simp [Except.map] at h
          have h8 := hc.2 hns
          simp only [Except.map, Except.error.injEq] at h8
          exact .inr ⟨[], item, l, rfl, hb', hns, by simp, by rw [h8]; rfl⟩
        | ok r =>
          rw [hr] at hc
          have hseg : Segmentable t.model.vocab (bytes item) := hc.1.1 ⟨r.1, rfl⟩
          rw [res_bind_ok]
          rcases ih (k + r.2) (acc ++ r.1) (fun p hp => hl p (by simp [hp])) with
            ⟨h3, h4⟩ | ⟨before, p, after, h3, h4, h5, h6, h7⟩
          · refine .inl ⟨h3, ?_⟩
            intro p hp hp'
            rcases List.mem_cons.1 hp with rfl | hp
            · exact hseg
            · exact h4 p hp hp'
          · refine .inr ⟨item :: before, p, after, by rw [h3]; rfl, h4, h5, ?_, h7⟩
            intro q hq hq'
            rcases List.mem_cons.1 hq with rfl | hq
            · exact hseg
            · exact h6 q hq hq'
  have e : t.encode norm s dropout rnd = runPieces norm t dropout rnd pieces 0 [] := h2
  rw [e]
  exact key pieces 0 [] hspecial

/-- **C103** (Python) What `encode_ordinary` raises when a text cannot be cut into tokens has the message
`no path to position N/N`, where `N` is the number of bytes of the processed text. -/
theorem C103_ordinary (norm : UnicodeForm → Str → Str) (vocab : List (ScoredToken F)) (ps : List Processor)
    (specials : List Str) (ops : List (Op F)) (s : Str) (dropout : F) (rnd : Nat → F) (hd : le dropout zero = true) :
    let t := build vocab ps specials ops
    let bytes := enc (ps.foldl (fun s p => p.preprocess norm s) s)
    ¬ Segmentable t.model.vocab bytes →
    ∃ e, t.encodeOrdinary norm s dropout rnd = .error e ∧ (Python.Raised.coding e).text =
      some ("no path to position ".toList ++ showNat bytes.length ++ '/' :: showNat bytes.length) := by
  intro t bytes h
  have hw : t.WF := wf_build vocab ps specials ops
  have hps : t.processors = ps := (build_spec vocab ps specials ops).2.1
  refine ⟨.noPath bytes.length bytes.length, ?_, rfl⟩
  have := (C03_encode_complete t.model.vocab (ps.foldl (fun s p => p.preprocess norm s) s) dropout rnd hd).2 h
  rw [← hw.model] at this
  rw [encodeOrdinary, preprocess, hps]
  exact this

omit [ScoreOps F] in
/-- **C103** (decode) What `decode` raises has the message `token id I is out of bounds`, where `I` is the first id that is
neither a base nor a special token. -/
theorem C103_decode (vocab : List (ScoredToken F)) (ps : List Processor) (specials : List Str) (ops : List (Op F))
    (flag : Bool) (pre post : List Nat) (id : Nat) :
    let t := build vocab ps specials ops
    (∀ i ∈ pre, i < t.vocabSize) → t.vocabSize ≤ id →
    ∃ e, t.decode (pre ++ id :: post) flag = .error e ∧
      (Python.Raised.coding e).text = some ("token id ".toList ++ showNat id ++ " is out of bounds".toList) := by
  intro t h1 h2
  exact ⟨.outOfBounds id, (C20_decode_errors vocab ps specials ops flag).1 pre id post h1 h2, rfl⟩

/-- Non-vacuity: `"ab<e>aé"` fails at its second ordinary piece, of three bytes. -/
example : exTok.encode exNorm "ab<e>aé".toList 0 exRnd = .error (.noPath 3 3) ∧
    (Err.noPath 3 3).display = some "no path to position 3/3".toList ∧
    (Err.outOfBounds 1024).display = some "token id 1024 is out of bounds".toList ∧
    (Err.noPath 3 12).debug = some "NoPath(3, 12)".toList := by
  refine ⟨by decide, by decide +kernel, by decide +kernel, by decide +kernel⟩

end Tokengeex

import Verif.Props.Tokenizer
import Verif.Proofs.MergeDup
/-
Adding special tokens (C100) and decoding in pieces (C102).
-/
namespace Tokengeex
open Spec Model ScoreOps Tokenizer
variable {F : Type}

/-! ## C100 -/

theorem matchAt_snoc {specials : List Str} {x suffix : Str} (h : ¬ x <+: suffix) :
    matchAt (specials ++ [x]) suffix = matchAt specials suffix := by
  unfold matchAt
  rw [List.find?_append]
  have : List.find? (fun t : Str => t.isPrefixOf suffix) [x] = none := by
    rw [List.find?_eq_none]
    intro y hy
    rw [List.mem_singleton] at hy
    subst hy
    rw [List.isPrefixOf_iff_prefix]
    exact h
  rw [this]
  cases specials.find? _ <;> rfl

theorem splitScan_snoc {specials : List Str} {x : Str} (input : Str) : ∀ (rest : Str) (i : Nat), ¬ x <:+: rest →
    splitScan (specials ++ [x]) input i rest = splitScan specials input i rest
  | [], _, _ => rfl
  | c :: cs, i, h => by
    rw [splitScan, splitScan, matchAt_snoc fun hp => h hp.isInfix,
      splitScan_snoc input cs (i + 1) fun hc => h (hc.trans (List.suffix_cons c cs).isInfix)]

theorem splitNext_snoc {specials : List Str} {x input : Str} (h : ¬ x <:+: input) :
    splitNext (specials ++ [x]) input = splitNext specials input := by
  unfold splitNext
  rw [splitScan_snoc input input 0 h]

/-- The item and what is left are parts of the text. -/
theorem splitNext_infix {specials : List Str} {input : Str} {item : Str × Bool} {rest : Str}
    (h : splitNext specials input = some (item, rest)) : item.1 <:+: input ∧ rest <:+: input := by
  have scan : ∀ (l : Str) (i : Nat), (splitScan specials input i l).1.1 <:+: input ∧ (splitScan specials input i l).2 <:+: input := by
    intro l
    induction l with
    | nil => intro i; exact ⟨List.infix_rfl, List.nil_infix⟩
    | cons c cs ih =>
      intro i
      rw [splitScan]
      cases matchAt specials (c :: cs) with
      | none => exact ih (i + 1)
      | some t =>
        by_cases hi : i > 0
        · simp only [if_pos hi]; exact ⟨(List.take_prefix _ _).isInfix, (List.drop_suffix _ _).isInfix⟩
        · simp only [if_neg hi]; exact ⟨(List.take_prefix _ _).isInfix, (List.drop_suffix _ _).isInfix⟩
  unfold splitNext at h
  by_cases hi : input = []
  · rw [if_pos hi] at h; simp at h
  · rw [if_neg hi] at h
    simp only [Option.some.injEq] at h
    have := scan input 0
    rw [h] at this
    exact this

theorem addSpecialToken_encode [ScoreOps F] (norm : UnicodeForm → Str → Str) (t : Tokenizer F) (x : Str) (dropout : F)
    (rnd : Nat → F) : ∀ (fuel : Nat) (s : Str) (k : Nat) (ids : List Nat), ¬ x <:+: s →
    encodeLoop norm (t.addSpecialToken x) dropout rnd fuel s k ids = encodeLoop norm t dropout rnd fuel s k ids := by
  intro fuel
  induction fuel with
  | zero => intros; rfl
  | succ fuel ih =>
    intro s k ids h
    by_cases hm : (t.specialMap x).isSome = true
    · rw [addSpecialToken, if_pos hm]
    · have e1 : (t.addSpecialToken x).specialTokens = t.specialTokens ++ [x] := by rw [addSpecialToken, if_neg hm]
      rw [encodeLoop, encodeLoop, e1, splitNext_snoc h]
      cases hn : splitNext t.specialTokens s with
      | none => rfl
      | some p =>
        obtain ⟨item, rest⟩ := p
        obtain ⟨h1, h2⟩ := splitNext_infix hn
        have e2 : (t.addSpecialToken x).encodePiece norm item dropout (fun j => rnd (k + j)) =
            t.encodePiece norm item dropout (fun j => rnd (k + j)) := by
          have hx : item.1 ≠ x := by intro e; exact h (e ▸ h1)
          have e3 : (t.addSpecialToken x).specialMap item.1 = t.specialMap item.1 := by
            rw [addSpecialToken, if_neg hm]
            show (if item.1 = x then _ else _) = _
            rw [if_neg hx]
          unfold encodePiece
          rw [e3, addSpecialToken_model]
          unfold preprocess
          rw [addSpecialToken_processors]
        simp only [e2]
        cases t.encodePiece norm item dropout (fun j => rnd (k + j)) with
        | error e => rfl
        | ok r => exact ih rest _ _ fun hc => h (hc.trans h2)

/-- **C100** Adding special tokens changes nothing for a text that contains none of them: not the ids, not an error, and not
whether encoding ends, however long it runs. -/
theorem C100_encode [ScoreOps F] (norm : UnicodeForm → Str → Str) (t : Tokenizer F) (new : List Str) (s : Str)
    (h : ∀ x ∈ new, ¬ x <:+: s) (dropout : F) (rnd : Nat → F) :
    (t.addSpecialTokens new).encode norm s dropout rnd = t.encode norm s dropout rnd ∧
    ∀ fuel, (t.addSpecialTokens new).encodeFuel norm fuel s dropout rnd = t.encodeFuel norm fuel s dropout rnd := by
  have key : ∀ fuel, (t.addSpecialTokens new).encodeFuel norm fuel s dropout rnd = t.encodeFuel norm fuel s dropout rnd := by
    intro fuel
    unfold addSpecialTokens
    induction new generalizing t with
    | nil => rfl
    | cons x new ih =>
      rw [List.foldl_cons, ih (t.addSpecialToken x) fun y hy => h y (by simp [hy])]
      exact addSpecialToken_encode norm t x dropout rnd fuel s 0 [] (h x (by simp))
  exact ⟨key _, key⟩

/-- **C100** (ordinary) `encode_ordinary` does not depend on the special tokens at all. -/
theorem C100_ordinary [ScoreOps F] (norm : UnicodeForm → Str → Str) (t : Tokenizer F) (new : List Str) (s : Str) (dropout : F)
    (rnd : Nat → F) : (t.addSpecialTokens new).encodeOrdinary norm s dropout rnd = t.encodeOrdinary norm s dropout rnd := by
  unfold encodeOrdinary preprocess
  rw [addSpecialTokens_model, addSpecialTokens_processors]

theorem addSpecialTokens_extends (t : Tokenizer F) (new : List Str) : t.specialTokens <+: (t.addSpecialTokens new).specialTokens := by
  unfold addSpecialTokens
  induction new generalizing t with
  | nil => exact List.prefix_rfl
  | cons x new ih =>
    rw [List.foldl_cons]
    refine List.IsPrefix.trans ?_ (ih (t.addSpecialToken x))
    unfold addSpecialToken
    by_cases hm : (t.specialMap x).isSome = true
    · rw [if_pos hm]
    · rw [if_neg hm]; exact List.prefix_append _ _

/-- **C100** (decode) Ids that could be decoded before special tokens were added are decoded to the same text afterwards. -/
theorem C100_decode (vocab : List (ScoredToken F)) (ps : List Processor) (specials : List Str) (ops : List (Op F))
    (new : List Str) (ids : List Nat) (flag : Bool) (text : Str)
    (h : (build vocab ps specials ops).decode ids flag = .ok text) :
    ((build vocab ps specials ops).addSpecialTokens new).decode ids flag = .ok text := by
  have hw := wf_build vocab ps specials ops
  generalize build vocab ps specials ops = t at *
  have hw' := hw.addSpecialTokens new
  have em := addSpecialTokens_model t new
  obtain ⟨more, hmore⟩ := addSpecialTokens_extends t new
  have key : ∀ (n : Nat) (ids : List Nat) (text : Str), ids.length ≤ n → t.decode ids flag = .ok text →
      (t.addSpecialTokens new).decode ids flag = .ok text := by
    intro n
    induction n with
    | zero =>
      intro ids text hn h
      have : ids = [] := List.length_eq_zero_iff.1 (by omega)
      subst this
      rw [decode_base' hw flag (by simp)] at h
      rw [decode_base' hw' flag (by simp), ← h]
      rfl
    | succ n ih =>
      intro ids text hn h
      rcases base_run_split t.model.vocabSize ids with hb | ⟨xs, id, ys, e, h1, h2⟩
      · rw [decode_base' hw flag hb] at h
        rw [decode_base' hw' flag (by rw [em]; exact hb), ← h]
        unfold runText
        rw [em]
      · subst e
        rw [decode_special hw flag h1 h2] at h
        rw [decode_special hw' flag (by rw [em]; exact h1) (by rw [em]; exact h2), em]
        cases hs : t.specialTokens[id - t.model.vocabSize]? with
        | none => rw [hs] at h; simp at h
        | some sp =>
          rw [hs] at h
          rw [← hmore, List.getElem?_append_left (List.getElem?_eq_some_iff.1 hs).1, hs]
          simp only at h ⊢
          cases hy : t.decode ys flag with
          | error e => rw [hy] at h; simp [Except.map] at h
          | ok y =>
            rw [hy] at h
            rw [ih ys y (by simp at hn; omega) hy, ← h]
            unfold runText
            rw [em]
  exact key _ ids text (Nat.le_refl _) h

/-- Non-vacuity: with `<x>` added, a text without it is encoded as before, and a text with it is not. -/
example : (exTok.addSpecialTokens ["<x>".toList]).encode (fun _ s => s) "ab<e>".toList 0 exRnd =
      exTok.encode (fun _ s => s) "ab<e>".toList 0 exRnd ∧
    exTok.encode (fun _ s => s) "ab<e>".toList 0 exRnd = .ok [2, 4] ∧ ¬ "<x>".toList <:+: "ab<e>".toList := by decide
example : (exTok.addSpecialTokens ["b".toList]).encode (fun _ s => s) "ab".toList 0 exRnd ≠
      exTok.encode (fun _ s => s) "ab".toList 0 exRnd := by decide

/-! ## C102 -/

/-- The ids end where a text ends: what follows the last special token (or all of it) spells a text. -/
def Spec.EndsText (t : Tokenizer F) (ids : List Nat) : Prop :=
  ∃ before run u, ids = before ++ run ∧ (before = [] ∨ ∃ rest id, before = rest ++ [id] ∧ t.isSpecial id = true) ∧
    Spells t.model.vocab run (enc u)

theorem spells_lt {v : List (ScoredToken F)} {ids : List Nat} {bs : List UInt8} (h : Spells v ids bs) : ∀ i ∈ ids, i < v.length := by
  induction ids generalizing bs with
  | nil => simp
  | cons j ids ih =>
    obtain ⟨t, r, h1, h2, _⟩ := spells_cons.1 h
    intro i hi
    rcases List.mem_cons.1 hi with rfl | hi
    · exact (List.getElem?_eq_some_iff.1 h1).1
    · exact ih h2 i hi

/-- **C102** Decoding can be done in pieces: if the first ids end where a text ends, the decoded text is what the first ids
decode to, followed by what the other ids decode to, and an error of either is the error of all. -/
theorem C102_decode (vocab : List (ScoredToken F)) (ps : List Processor) (specials : List Str) (ops : List (Op F))
    (flag : Bool) (a b : List Nat) (h : EndsText (build vocab ps specials ops) a) :
    (build vocab ps specials ops).decode (a ++ b) flag = (do
      let x ← (build vocab ps specials ops).decode a flag
      let y ← (build vocab ps specials ops).decode b flag
      pure (x ++ y)) := by
  have hw := wf_build vocab ps specials ops
  have hpiece := C59_decode_piecewise vocab ps specials ops flag
  generalize build vocab ps specials ops = t at *
  have text : ∀ (run : List Nat) (u : Str), Spells t.model.vocab run (enc u) → t.runText run = u ∧
      ∀ more : List Nat, (∀ i ∈ more, i < t.model.vocabSize) → t.runText (run ++ more) = u ++ t.runText more := by
    intro run u hu
    obtain ⟨f, hf, hv⟩ : ∃ f : Nat → List UInt8, (∀ ids, t.runText ids = lossy (ids.flatMap f)) ∧
        ∀ i tok, t.model.vocab[i]? = some tok → f i = tok.value := ⟨_, fun _ => rfl, by intro i tok h; simp [h]⟩
    have hfl : run.flatMap f = enc u := by
      generalize enc u = bs at hu
      induction run generalizing bs with
      | nil => rw [spells_nil.1 hu]; rfl
      | cons i run ih =>
        obtain ⟨tok, r, h1, h2, rfl⟩ := spells_cons.1 hu
        rw [List.flatMap_cons, ih r h2, hv i tok h1]
    refine ⟨by rw [hf, hfl, lossy_enc], ?_⟩
    intro more _
    rw [hf, List.flatMap_append, hfl, lossy_enc_append, ← hf]
  -- a run of base ids
  have run : ∀ (r : List Nat) (u : Str), Spells t.model.vocab r (enc u) →
      t.decode (r ++ b) flag = (t.decode b flag).map (fun y => u ++ y) := by
    intro r u hu
    have hr : ∀ i ∈ r, i < t.model.vocabSize := spells_lt hu
    rcases base_run_split t.model.vocabSize b with hb | ⟨xs, id, ys, e, h1, h2⟩
    · rw [decode_base' hw flag hb, decode_base' hw flag (by
        intro i hi
        rcases List.mem_append.1 hi with hi | hi
        · exact hr i hi
        · exact hb i hi), (text r u hu).2 b hb]
      rfl
    · subst e
      rw [← List.append_assoc, decode_special hw flag h1 h2, decode_special hw flag (by
        intro i hi
        rcases List.mem_append.1 hi with hi | hi
        · exact hr i hi
        · exact h1 i hi) h2, (text r u hu).2 xs h1]
      cases t.specialTokens[id - t.model.vocabSize]? with
      | none => rfl
      | some sp =>
        simp only
        cases t.decode ys flag with
        | error e => rfl
        | ok y => simp [Except.map]
  obtain ⟨before, r, u, rfl, hbefore, hu⟩ := h
  have hr : t.decode r flag = .ok u := by rw [decode_base' hw flag (spells_lt hu), (text r u hu).1]
  rcases hbefore with rfl | ⟨rest, id, rfl, hid⟩
  · rw [List.nil_append, run r u hu, hr]
    cases t.decode b flag <;> rfl
  · obtain ⟨sp, hsp⟩ : ∃ sp, t.idToSpecialToken id = some sp := by
      unfold isSpecial at hid
      unfold idToSpecialToken
      by_cases hlt : id < t.model.vocabSize
      · rw [if_pos hlt] at hid; simp at hid
      · rw [if_neg hlt] at hid ⊢
        exact Option.isSome_iff_exists.1 hid
    have e1 : rest ++ [id] ++ r ++ b = rest ++ id :: (r ++ b) := by simp
    have e2 : rest ++ [id] ++ r = rest ++ id :: r := by simp
    rw [e1, e2, hpiece _ _ _ sp hsp, hpiece _ _ _ sp hsp, run r u hu, hr]
    cases t.decode rest flag with
    | error e => rfl
    | ok x =>
      cases t.decode b flag with
      | error e => rfl
      | ok y => simp [Except.map, Bind.bind, Except.bind, Pure.pure, Except.pure]

/-- The two bytes of `é` as tokens. -/
def splitChar : Tokenizer Int := build [⟨[195], 0, false⟩, ⟨[169], 0, false⟩] [] [] []

/-- **C102** (what does not hold) If the first ids end inside a character, the pieces decode to something else. -/
theorem C102_inside_false : splitChar.decode [0, 1] true = .ok ['é'] ∧ splitChar.decode [0] true = .ok ['�'] ∧
    splitChar.decode [1] true = .ok ['�'] := by decide

/-- Non-vacuity: ids that end where a text ends, after a special token and a base token. -/
example : EndsText exTok [0, 4, 0] ∧ exTok.decode ([0, 4, 0] ++ [1]) true = .ok "a<e>ab".toList :=
  ⟨⟨[0, 4], [0], ['a'], rfl, .inr ⟨[0], 4, rfl, by decide⟩, ⟨[⟨[97], -1, true⟩], by decide, by decide⟩⟩, by decide⟩

end Tokengeex

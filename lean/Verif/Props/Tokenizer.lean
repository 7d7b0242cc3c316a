import Verif.Proofs.Tokenizer
/-
C12-C22, C24, C26, C59, C60: the tokenizer (src/tokenizer.rs).

`build vocab ps specials ops` is the tokenizer obtained by `Tokenizer::new(Model::from(vocab), ps, specials)` followed
by the mutating calls `ops`; every tokenizer reachable through the API has this form.  `norm` is the Unicode
normalisation of the external crate (arbitrary).
-/
namespace Tokengeex
open Spec ScoreOps Tokenizer

variable {F : Type}

def exNorm : UnicodeForm → Str → Str := fun _ s => s

/-- A tokenizer with two special tokens (one of them given twice) and a base token added later. -/
def exTok : Tokenizer Int :=
  build [⟨[97], -1, true⟩, ⟨[98], -1, true⟩] [.crlf] [['<', 'e', '>'], ['<', 's', '>']]
    [.addSpecial [['<', 'e', '>'], ['a', 'a']], .addBase [⟨[97, 98], -1, true⟩, ⟨[10], -1, true⟩]]

/-- **C12** Ids are partitioned into base, special and invalid; the lookups are defined exactly on their parts. -/
theorem C12_partition (vocab : List (ScoredToken F)) (ps : List Processor) (specials : List Str) (ops : List (Op F)) (id : Nat) :
    let t := build vocab ps specials ops
    t.vocabSize = t.baseVocabSize + t.specialVocabSize ∧
    t.baseVocabSize = (givenBase vocab ops).length ∧
    ((t.isBase id = true ∧ t.isSpecial id = false ∧ id < t.vocabSize) ∨
     (t.isBase id = false ∧ t.isSpecial id = true ∧ id < t.vocabSize) ∨
     (t.isBase id = false ∧ t.isSpecial id = false ∧ t.vocabSize ≤ id)) ∧
    (t.isBase id = true ↔ id < t.baseVocabSize) ∧
    ((t.idToBaseToken id).isSome ↔ t.isBase id = true) ∧
    ((t.idToSpecialToken id).isSome ↔ t.isSpecial id = true) ∧
    ((t.idToToken id).isSome ↔ id < t.vocabSize) := by
  intro t
  have hm := (build_spec vocab ps specials ops).1
  have hv : t.model.vocabSize = (givenBase vocab ops).length := by
    show (build vocab ps specials ops).model.vocabSize = _
    rw [hm]; rfl
  have hbase : t.idToBaseToken id = (givenBase vocab ops)[id]? := by
    show (build vocab ps specials ops).model.idToToken id = _
    rw [hm]; exact (C10_lookups _).2.1 id
  have hspec : (t.idToSpecialToken id).isSome = t.isSpecial id := by
    unfold idToSpecialToken isSpecial
    split <;> rfl
  have hs : t.isSpecial id = true ↔ t.model.vocabSize ≤ id ∧ id < t.vocabSize := by
    unfold isSpecial Tokenizer.vocabSize
    split
    · simp; omega
    · simp; omega
  have hb : t.isBase id = true ↔ id < t.model.vocabSize := by simp [isBase]
  have hvs : t.vocabSize = t.model.vocabSize + t.specialTokens.length := rfl
  refine ⟨rfl, hv, ?_, hb, ?_, by rw [hspec], ?_⟩
  · rcases Nat.lt_or_ge id t.model.vocabSize with h | h
    · left
      refine ⟨hb.2 h, ?_, by omega⟩
      rw [← Bool.not_eq_true, hs]; omega
    · right
      have h1 : t.isBase id = false := by rw [← Bool.not_eq_true, hb]; omega
      rcases Nat.lt_or_ge id t.vocabSize with h' | h'
      · exact .inl ⟨h1, hs.2 ⟨h, h'⟩, h'⟩
      · refine .inr ⟨h1, ?_, h'⟩
        rw [← Bool.not_eq_true, hs]; omega
  · rw [hbase, hb, hv]; simp
  · unfold Tokenizer.idToToken
    cases hsp : t.idToSpecialToken id with
    | some v =>
      have : t.isSpecial id = true := by rw [← hspec, hsp]; rfl
      simpa using (hs.1 this).2
    | none =>
      have : ¬ (t.isSpecial id = true) := by rw [← hspec, hsp]; simp
      rw [hs] at this
      simp only [Option.map_none, Option.isSome_map, hbase]
      simp
      omega

example : exTok.baseVocabSize = 4 ∧ exTok.vocabSize = 7 ∧ exTok.isSpecial 6 = true ∧ exTok.isSpecial 7 = false ∧
    exTok.idToToken 6 = some [97, 97] := by decide

/-- **C13** After any history the registry lists the distinct special tokens ever given, by first registration, and
the two lookups are inverse to each other. -/
theorem C13_registry (vocab : List (ScoredToken F)) (ps : List Processor) (specials : List Str) (ops : List (Op F)) :
    let t := build vocab ps specials ops
    FirstOccurrences (givenSpecial specials ops) t.specialTokens ∧ t.specialTokens.Nodup ∧
    ∀ s id, t.specialTokenToId s = some id ↔ t.idToSpecialToken id = some s := by
  intro t
  have h : t.WF := wf_build vocab ps specials ops
  refine ⟨(build_spec vocab ps specials ops).2.2, h.nodup, ?_⟩
  intro s id
  unfold specialTokenToId idToSpecialToken
  simp only [Option.map_eq_some_iff]
  constructor
  · rintro ⟨i, hi, rfl⟩
    rw [if_neg (by omega), Nat.add_sub_cancel]
    exact (h.map s i).1 hi
  · intro hid
    split at hid
    · simp at hid
    · exact ⟨id - t.model.vocabSize, (h.map _ _).2 hid, by omega⟩

example : exTok.specialTokens = [['<', 'e', '>'], ['<', 's', '>'], ['a', 'a']] ∧
    exTok.specialTokenToId ['a', 'a'] = some 6 := by decide

/-- **C14** Adding special tokens changes no existing id; adding base tokens keeps the meaning of base ids and shifts
every special id by exactly the number of added tokens. -/
theorem C14_stability (vocab : List (ScoredToken F)) (ps : List Processor) (specials : List Str) (ops : List (Op F))
    (newSpecials : List Str) (newBase : List (ScoredToken F)) :
    let t := build vocab ps specials ops
    (∀ v, (t.addSpecialTokens newSpecials).baseTokenToId v = t.baseTokenToId v) ∧
    (∀ i, (t.addSpecialTokens newSpecials).idToBaseToken i = t.idToBaseToken i) ∧
    (∀ s id, t.specialTokenToId s = some id → (t.addSpecialTokens newSpecials).specialTokenToId s = some id) ∧
    (∀ i, i < t.vocabSize → (t.addSpecialTokens newSpecials).idToToken i = t.idToToken i) ∧
    (∀ i, i < t.baseVocabSize → (t.addBaseTokens newBase).idToBaseToken i = t.idToBaseToken i) ∧
    (∀ s id, t.specialTokenToId s = some id → (t.addBaseTokens newBase).specialTokenToId s = some (id + newBase.length)) ∧
    (∀ s, t.specialTokenToId s = none → (t.addBaseTokens newBase).specialTokenToId s = none) := by
  intro t
  have h : t.WF := wf_build vocab ps specials ops
  have h' := h.addSpecialTokens newSpecials
  have hm := addSpecialTokens_model t newSpecials
  -- the old registry is a prefix of the new one
  have hpre : ∀ (i : Nat) (s : Str), t.specialTokens[i]? = some s → (t.addSpecialTokens newSpecials).specialTokens[i]? = some s := by
    have key : ∀ (l : List Str) (t : Tokenizer F), t.WF → ∀ (i : Nat) (s : Str), t.specialTokens[i]? = some s →
        (t.addSpecialTokens l).specialTokens[i]? = some s := by
      intro l
      induction l with
      | nil => intro t _ i s h; exact h
      | cons x l ih =>
        intro t ht i s hi
        refine ih (t.addSpecialToken x) (ht.addSpecialToken x) i s ?_
        rw [addSpecialToken_reg ht]
        split
        · exact hi
        · rw [List.getElem?_append_left (List.getElem?_eq_some_iff.1 hi).1]; exact hi
    exact key newSpecials t h
  have hsize : (t.addBaseTokens newBase).model.vocabSize = t.model.vocabSize + newBase.length := by
    show (t.model.addTokens newBase).vocab.length = _
    rw [Model.addTokens_vocab]; simp [Model.vocabSize]
  refine ⟨?_, ?_, ?_, ?_, ?_, ?_, ?_⟩
  · intro v; unfold baseTokenToId; rw [hm]
  · intro i; unfold idToBaseToken; rw [hm]
  · intro s id hs
    unfold specialTokenToId at hs ⊢
    simp only [Option.map_eq_some_iff] at hs ⊢
    obtain ⟨i, hi, e⟩ := hs
    exact ⟨i, (h'.map _ _).2 (hpre _ _ ((h.map _ _).1 hi)), by rw [hm]; exact e⟩
  · intro i hi
    unfold Tokenizer.idToToken idToBaseToken idToSpecialToken
    rw [hm]
    unfold Tokenizer.vocabSize at hi
    by_cases hc : i < t.model.vocabSize
    · simp only [if_pos hc]
    · have hlt : i - t.model.vocabSize < t.specialTokens.length := by omega
      simp only [if_neg hc]
      rw [hpre _ _ (List.getElem?_eq_getElem hlt), List.getElem?_eq_getElem hlt]
  · intro i hi
    have e1 : t.idToBaseToken i = t.model.vocab[i]? := by
      unfold idToBaseToken; rw [h.model]; exact (C10_lookups _).2.1 i
    have e2 : (t.addBaseTokens newBase).idToBaseToken i = (t.model.vocab ++ newBase)[i]? := by
      unfold idToBaseToken
      rw [(h.addBaseTokens newBase).model]
      show (Model.from_ (t.model.addTokens newBase).vocab).idToToken i = _
      rw [Model.addTokens_vocab]
      exact (C10_lookups _).2.1 i
    rw [e1, e2, List.getElem?_append_left (show i < t.model.vocab.length from hi)]
  · intro s id hs
    unfold specialTokenToId at hs ⊢
    rw [hsize]
    simp only [Option.map_eq_some_iff] at hs ⊢
    obtain ⟨i, hi, rfl⟩ := hs
    exact ⟨i, hi, by omega⟩
  · intro s hs
    unfold specialTokenToId at hs ⊢
    simp only [Option.map_eq_none_iff] at hs ⊢
    exact hs

example : exTok.specialTokenToId ['<', 'e', '>'] = some 4 ∧
    (exTok.addBaseTokens [⟨[99], 0, true⟩]).specialTokenToId ['<', 'e', '>'] = some 5 := by decide

/-- **C15** The splitter terminates on non-empty special tokens and cuts the text into consecutive non-empty pieces that
concatenate to it, special pieces being registered tokens, with no two consecutive ordinary pieces. -/
theorem C15_split_partition (specials : List Str) (hne : [] ∉ specials) (input : Str) (fuel : Nat) (hf : input.length < fuel) :
    ∃ pieces, splitAll specials fuel input = some pieces ∧ (pieces.map Prod.fst).flatten = input ∧
      (∀ p ∈ pieces, p.1 ≠ []) ∧ (∀ p, (p, true) ∈ pieces → p ∈ specials) ∧
      (∀ pre p q post, pieces ≠ pre ++ (p, false) :: (q, false) :: post) := by
  obtain ⟨pieces, h1, h2⟩ := splitAll_spec hne fuel input hf
  refine ⟨pieces, h1, h2.concat, h2.nonempty, ?_, h2.alternate⟩
  intro p hp
  obtain ⟨pre, post, e⟩ := List.append_of_mem hp
  exact (h2.special pre p post e).mem

/-- **C16** The split is the leftmost, first-registered one — no special token starts inside an ordinary piece and each
special piece is the first registered match at its position — and it is the only such split. -/
theorem C16_split_leftmost (specials : List Str) (input : Str) (fuel : Nat) (pieces : List (Str × Bool))
    (h : splitAll specials fuel input = some pieces) :
    IsSplit specials input pieces ∧ ∀ other, IsSplit specials input other → other = pieces :=
  ⟨splitAll_isSplit fuel input pieces h, fun _ ho => isSplit_unique ho (splitAll_isSplit fuel input pieces h)⟩

example : splitAll [['<', 'e', '>'], ['a', 'a']] 20 "ba<e>aa<".toList =
    some [(['b', 'a'], false), (['<', 'e', '>'], true), (['a', 'a'], true), (['<'], false)] := by decide
/-- A longer token registered later is not found. -/
example : splitAll [['a'], ['a', 'a']] 20 ['a', 'a'] = some [(['a'], true), (['a'], true)] := by decide

section
variable [ScoreOps F]

/-- **C17** (false as stated) If the empty string is a registered special token, `encode` does not terminate: on a text
that starts with no non-empty special token, no number of steps is enough. -/
theorem C17_terminates_false (norm : UnicodeForm → Str → Str) (vocab : List (ScoredToken F)) (ps : List Processor)
    (specials : List Str) (ops : List (Op F)) (s : Str) (hs : s ≠ []) (dropout : F) (rnd : Nat → F)
    (hmem : [] ∈ givenSpecial specials ops) (hno : ∀ u ∈ givenSpecial specials ops, u <+: s → u = []) :
    ∀ fuel, (build vocab ps specials ops).encodeFuel norm fuel s dropout rnd = .error .diverge := by
  intro fuel
  have h := wf_build vocab ps specials ops
  have hreg := (build_spec vocab ps specials ops).2.2.1
  have hmem' := (hreg []).2 hmem
  refine encodeLoop_diverge norm h hmem' dropout rnd fuel s 0 [] ?_
  obtain ⟨p, b, rest, e, hc, hp, h1, h2⟩ := splitNext_spec (specials := (build vocab ps specials ops).specialTokens) hs
  have hb : b = true ∧ p = [] := by
    cases b with
    | true =>
      have hf := h1 rfl
      exact ⟨rfl, hno p ((hreg p).1 hf.mem) hf.1⟩
    | false =>
      exfalso
      rcases hp with hp | ⟨hb, _⟩
      · exact (h2 rfl).1 0 (List.length_pos_iff.2 hp) [] hmem' List.nil_prefix
      · simp at hb
  obtain ⟨rfl, rfl⟩ := hb
  rw [List.nil_append] at hc
  rw [← hc] at e
  exact splitAll_stuck e fuel

example : ∀ fuel, (build (F := Int) [⟨[97], 0, true⟩] [] [['<'], []] []).encodeFuel exNorm fuel ['a'] 0 exRnd =
    .error .diverge :=
  C17_terminates_false exNorm _ _ _ _ _ (by decide) _ _ (by decide) (by decide)

theorem encodePiece_ne_diverge (norm : UnicodeForm → Str → Str) {t : Tokenizer F} (h : t.WF) (item : Str × Bool)
    (dropout : F) (rnd : Nat → F) : t.encodePiece norm item dropout rnd ≠ .error .diverge := by
  unfold encodePiece
  split
  · split <;> simp
  · rw [h.model]
    unfold Model.encodeR
    rcases Model.encodeBytes_cases (Model.wf_from t.model.vocab) dropout rnd (enc (t.preprocess norm item.1)) with
      ⟨_, ids, k, h1, _⟩ | ⟨_, _, h1⟩ <;> rw [h1] <;> simp

/-- **C17** (what holds) If no registered special token is empty, `encode` returns after at most `length + 1` steps, with
the same result for every larger number of steps. -/
theorem C17_terminates_partial (norm : UnicodeForm → Str → Str) (vocab : List (ScoredToken F)) (ps : List Processor)
    (specials : List Str) (ops : List (Op F)) (hne : [] ∉ givenSpecial specials ops) (s : Str) (dropout : F) (rnd : Nat → F) :
    let t := build vocab ps specials ops
    t.encode norm s dropout rnd ≠ .error .diverge ∧
    ∀ fuel, s.length < fuel → t.encodeFuel norm fuel s dropout rnd = t.encode norm s dropout rnd := by
  intro t
  have h : t.WF := wf_build vocab ps specials ops
  have hne' : [] ∉ t.specialTokens := fun hm => hne (((build_spec vocab ps specials ops).2.2.1 []).1 hm)
  obtain ⟨pieces, h1, h2⟩ := encodeFuel_eq norm t hne' dropout rnd s (s.length + 1) (by omega)
  refine ⟨?_, ?_⟩
  · unfold Tokenizer.encode
    rw [h2]
    have : ∀ (pieces : List (Str × Bool)) k acc, runPieces norm t dropout rnd pieces k acc ≠ .error .diverge := by
      intro pieces
      induction pieces with
      | nil => intro k acc; simp [runPieces]
      | cons item pieces ih =>
        intro k acc
        unfold runPieces
        cases he : t.encodePiece norm item dropout (fun j => rnd (k + j)) with
        | error e =>
          intro hc
          simp only [res_bind_error, Except.error.injEq] at hc
          subst hc
          exact encodePiece_ne_diverge norm h _ _ _ he
        | ok r => simp only [res_bind_ok]; exact ih _ _
    exact this _ _ _
  · intro fuel hf
    obtain ⟨pieces', h1', h2'⟩ := encodeFuel_eq norm t hne' dropout rnd s fuel hf
    unfold Tokenizer.encode
    rw [h2, h2', isSplit_unique h1 h1']

example : [] ∉ givenSpecial (F := Int) [['<', 'e', '>']] [.addSpecial [['a', 'a']]] := by decide

/-- Every non-empty text with a split terminates even with an empty special token; and the only way not to terminate is
that no split exists. -/
theorem C17_diverges_iff (norm : UnicodeForm → Str → Str) (vocab : List (ScoredToken F)) (ps : List Processor)
    (specials : List Str) (ops : List (Op F)) (s : Str) (dropout : F) (rnd : Nat → F) :
    let t := build vocab ps specials ops
    (∀ fuel, t.encodeFuel norm fuel s dropout rnd = .error .diverge) ↔
      ¬ ∃ pieces, IsSplit t.specialTokens s pieces := by
  intro t
  have h : t.WF := wf_build vocab ps specials ops
  constructor
  · rintro hd ⟨pieces, hp⟩
    have h1 := splitAll_of_isSplit (s.length + 1) s pieces (by omega) hp
    have h2 := hd (s.length + 1)
    unfold encodeFuel at h2
    rw [encodeLoop_eq norm t dropout rnd _ _ _ _ _ h1] at h2
    have : ∀ (pieces : List (Str × Bool)) k acc, runPieces norm t dropout rnd pieces k acc ≠ .error .diverge := by
      intro pieces
      induction pieces with
      | nil => intro k acc; simp [runPieces]
      | cons item pieces ih =>
        intro k acc
        unfold runPieces
        cases he : t.encodePiece norm item dropout (fun j => rnd (k + j)) with
        | error e =>
          intro hc
          simp only [res_bind_error, Except.error.injEq] at hc
          subst hc
          exact encodePiece_ne_diverge norm h _ _ _ he
        | ok r => simp only [res_bind_ok]; exact ih _ _
    exact this _ _ _ h2
  · intro hno fuel
    have hmem : [] ∈ t.specialTokens := by
      by_cases hm : [] ∈ t.specialTokens
      · exact hm
      · exact absurd (isSplit_exists hm s) hno
    refine encodeLoop_diverge norm h hmem dropout rnd fuel s 0 [] ?_
    cases hs : splitAll t.specialTokens fuel s with
    | none => rfl
    | some pieces => exact absurd ⟨pieces, splitAll_isSplit _ _ _ hs⟩ hno

/-- **C18** Round trip: decoding (with special tokens) what `encode` returned gives the text with the processors applied
to its ordinary pieces and its special tokens untouched. -/
theorem C18_round_trip (norm : UnicodeForm → Str → Str) (vocab : List (ScoredToken F)) (ps : List Processor)
    (specials : List Str) (ops : List (Op F)) (s : Str) (dropout : F) (rnd : Nat → F) (ids : List Nat)
    (he : (build vocab ps specials ops).encode norm s dropout rnd = .ok ids) :
    ∃ pieces, IsSplit (build vocab ps specials ops).specialTokens s pieces ∧
      (build vocab ps specials ops).decode ids true = .ok (pieces.flatMap (fun piece =>
        if piece.2 then piece.1 else ps.foldl (fun s p => p.preprocess norm s) piece.1)) := by
  have h := wf_build vocab ps specials ops
  obtain ⟨pieces, parts, h1, h2, h3, h4⟩ := encode_parts h he
  refine ⟨pieces, h1, ?_⟩
  rw [h2, decode_parts h true pieces parts h3 h4 h1.alternate]
  have hp := (build_spec vocab ps specials ops).2.1
  congr 2
  funext piece
  simp only [pieceOut, if_true, preprocess, hp]

/-- **C18** without processors: `decode` inverts `encode` on every text. -/
theorem C18_round_trip_plain (norm : UnicodeForm → Str → Str) (vocab : List (ScoredToken F))
    (specials : List Str) (ops : List (Op F)) (s : Str) (dropout : F) (rnd : Nat → F) (ids : List Nat)
    (he : (build vocab [] specials ops).encode norm s dropout rnd = .ok ids) :
    (build vocab [] specials ops).decode ids true = .ok s := by
  obtain ⟨pieces, h1, h2⟩ := C18_round_trip norm vocab [] specials ops s dropout rnd ids he
  rw [h2, ← h1.concat]
  simp [pieceText, List.flatMap]

example : exTok.encode exNorm "<e>ab\r\naa<s>".toList 0 exRnd = .ok [4, 2, 3, 6, 5] ∧
    exTok.decode [4, 2, 3, 6, 5] true = .ok "<e>ab\naa<s>".toList := by decide

/-- Text of a run of base ids, in terms of the vocabulary. -/
def Spec.runBytes (vocab : List (ScoredToken F)) (run : List Nat) : List UInt8 :=
  run.flatMap (fun i => match vocab[i]? with | some tok => tok.value | none => [])

omit [ScoreOps F] in
/-- **C19** For any id sequence written as runs of base ids separated by special ids, `decode` with
`include_special_tokens` returns the decoded runs with the special texts in between, and without it the decoded runs
alone. -/
theorem C19_decode_runs (vocab : List (ScoredToken F)) (ps : List Processor) (specials : List Str) (ops : List (Op F))
    (first : List Nat) (rest : List ((Nat × Str) × List Nat)) (flag : Bool)
    (hfirst : ∀ i ∈ first, i < (givenBase vocab ops).length)
    (hrest : ∀ x ∈ rest, (build vocab ps specials ops).idToSpecialToken x.1.1 = some x.1.2 ∧
      ∀ i ∈ x.2, i < (givenBase vocab ops).length) :
    (build vocab ps specials ops).decode (first ++ rest.flatMap (fun x => x.1.1 :: x.2)) flag =
      .ok (lossy (runBytes (givenBase vocab ops) first) ++ rest.flatMap (fun x =>
        (if flag then x.1.2 else []) ++ lossy (runBytes (givenBase vocab ops) x.2))) := by
  have h := wf_build vocab ps specials ops
  have hm := (build_spec vocab ps specials ops).1
  generalize ht : build vocab ps specials ops = t at *
  have hsize : t.model.vocabSize = (givenBase vocab ops).length := by rw [hm]; rfl
  have hrun : ∀ run, t.runText run = lossy (runBytes (givenBase vocab ops) run) := by
    intro run; unfold runText runBytes; rw [hm]; rfl
  rw [← hsize] at hfirst
  simp only [← hsize] at hrest
  simp only [← hrun]
  clear ht hm hrun hsize
  induction rest generalizing first with
  | nil => simp [decode_base' h flag hfirst]
  | cons x rest ih =>
    obtain ⟨⟨id, sp⟩, run⟩ := x
    have hx := hrest ((id, sp), run) (by simp)
    have h1 : ¬ id < t.model.vocabSize := by
      intro hc; simp [idToSpecialToken, hc] at hx
    have h2 : t.specialTokens[id - t.model.vocabSize]? = some sp := by
      have := hx.1
      simp only [idToSpecialToken, h1, if_false] at this
      exact this
    have := ih run hx.2 (fun y hy => hrest y (by simp [hy]))
    rw [List.flatMap_cons, List.cons_append, decode_special h flag hfirst (id := id) (Nat.le_of_not_lt h1), h2]
    simp only
    rw [this]
    simp [Except.map]

omit [ScoreOps F] in
/-- **C19** (failure) `decode` with and without special tokens fail on the same inputs, with the same error. -/
theorem C19_same_failures (vocab : List (ScoredToken F)) (ps : List Processor) (specials : List Str) (ops : List (Op F))
    (ids : List Nat) (e : Err) :
    (build vocab ps specials ops).decode ids false = .error e ↔ (build vocab ps specials ops).decode ids true = .error e := by
  have h := wf_build vocab ps specials ops
  generalize build vocab ps specials ops = t at *
  have key : ∀ (n : Nat) (ids : List Nat), ids.length ≤ n → (t.decode ids false = .error e ↔ t.decode ids true = .error e) := by
    intro n
    induction n with
    | zero =>
      intro ids hn
      have : ids = [] := List.length_eq_zero_iff.1 (by omega)
      subst this
      rw [decode_base' h false (by simp), decode_base' h true (by simp)]
    | succ n ih =>
      intro ids hn
      rcases base_run_split t.model.vocabSize ids with hb | ⟨xs, id, ys, e', h1, h2⟩
      · rw [decode_base' h false hb, decode_base' h true hb]
      · subst e'
        rw [decode_special h false h1 h2, decode_special h true h1 h2]
        cases t.specialTokens[id - t.model.vocabSize]? with
        | none => rfl
        | some sp =>
          simp only
          have := ih ys (by simp at hn; omega)
          cases hf : t.decode ys false <;> cases ht : t.decode ys true <;> rw [hf, ht] at this <;>
            simp [Except.map] at this ⊢
          · exact this
          · exact this
          · exact this
  exact key _ ids (Nat.le_refl _)

example : exTok.decode [2, 4, 0, 6, 5] false = .ok ['a', 'b', 'a'] ∧
    exTok.decode [2, 4, 0, 6, 5] true = .ok "ab<e>aaa<s>".toList := by decide

omit [ScoreOps F] in
/-- **C20** `decode` fails exactly on unknown ids, reports the first of them, and never panics or diverges. -/
theorem C20_decode_errors (vocab : List (ScoredToken F)) (ps : List Processor) (specials : List Str) (ops : List (Op F))
    (flag : Bool) :
    let t := build vocab ps specials ops
    (∀ pre id post, (∀ i ∈ pre, i < t.vocabSize) → t.vocabSize ≤ id →
      t.decode (pre ++ id :: post) flag = .error (.outOfBounds id)) ∧
    (∀ ids, (∀ i ∈ ids, i < t.vocabSize) → ∃ s, t.decode ids flag = .ok s) := by
  intro t
  have h : t.WF := wf_build vocab ps specials ops
  have hvs : t.vocabSize = t.model.vocabSize + t.specialTokens.length := rfl
  have hsp : ∀ id, t.model.vocabSize ≤ id → id < t.vocabSize → ∃ sp, t.specialTokens[id - t.model.vocabSize]? = some sp := by
    intro id h1 h2
    exact ⟨_, List.getElem?_eq_getElem (by omega)⟩
  constructor
  · intro pre id post
    have key : ∀ (n : Nat) (pre : List Nat), pre.length ≤ n → (∀ i ∈ pre, i < t.vocabSize) → t.vocabSize ≤ id →
        t.decode (pre ++ id :: post) flag = .error (.outOfBounds id) := by
      intro n
      induction n with
      | zero =>
        intro pre hn _ hid
        have : pre = [] := List.length_eq_zero_iff.1 (by omega)
        subst this
        rw [decode_special h flag (by simp) (by omega), List.getElem?_eq_none (by omega)]
      | succ n ih =>
        intro pre hn hpre hid
        rcases base_run_split t.model.vocabSize pre with hb | ⟨xs, id', ys, e, h1, h2⟩
        · rw [decode_special h flag hb (by omega), List.getElem?_eq_none (by omega)]
        · subst e
          obtain ⟨sp, hs⟩ := hsp id' h2 (hpre id' (by simp))
          rw [List.append_assoc, List.cons_append, decode_special h flag h1 h2, hs]
          simp only
          rw [ih ys (by simp at hn; omega) (fun i hi => hpre i (by simp [hi])) hid]
          rfl
    exact key _ pre (Nat.le_refl _)
  · have key : ∀ (n : Nat) (ids : List Nat), ids.length ≤ n → (∀ i ∈ ids, i < t.vocabSize) → ∃ s, t.decode ids flag = .ok s := by
      intro n
      induction n with
      | zero =>
        intro ids hn _
        have : ids = [] := List.length_eq_zero_iff.1 (by omega)
        subst this
        exact ⟨_, decode_base' h flag (by simp)⟩
      | succ n ih =>
        intro ids hn hids
        rcases base_run_split t.model.vocabSize ids with hb | ⟨xs, id', ys, e, h1, h2⟩
        · exact ⟨_, decode_base' h flag hb⟩
        · subst e
          obtain ⟨sp, hs⟩ := hsp id' h2 (hids id' (by simp))
          obtain ⟨s, hs'⟩ := ih ys (by simp at hn; omega) (fun i hi => hids i (by simp [hi]))
          rw [decode_special h flag h1 h2, hs]
          simp only
          rw [hs']
          exact ⟨_, rfl⟩
    exact fun ids => key _ ids (Nat.le_refl _)

example : exTok.decode [0, 6, 7, 99] true = .error (.outOfBounds 7) := by decide

/-- **C21** If no registered special token occurs in the text, `encode` and `encode_ordinary` agree, draw for draw.
(Normalisation is assumed to map the empty text to itself.) -/
theorem C21_encode_ordinary (norm : UnicodeForm → Str → Str) (hnorm : ∀ f, norm f [] = []) (vocab : List (ScoredToken F))
    (ps : List Processor) (specials : List Str) (ops : List (Op F)) (s : Str) (dropout : F) (rnd : Nat → F)
    (hno : ∀ u ∈ givenSpecial specials ops, ¬ u <:+: s) :
    (build vocab ps specials ops).encode norm s dropout rnd =
      (build vocab ps specials ops).encodeOrdinary norm s dropout rnd := by
  have h := wf_build vocab ps specials ops
  have hreg := (build_spec vocab ps specials ops).2.2.1
  generalize build vocab ps specials ops = t at *
  by_cases hs : s = []
  · subst hs
    have hp : t.preprocess norm [] = [] := by
      unfold preprocess
      generalize t.processors = l
      induction l with
      | nil => rfl
      | cons p l ih =>
        rw [List.foldl_cons]
        cases p with
        | crlf => exact ih
        | unicode f => show List.foldl _ (norm f []) l = []; rw [hnorm]; exact ih
    unfold encodeOrdinary
    rw [hp]
    rfl
  · have hsplit : IsSplit t.specialTokens s [(s, false)] := by
      have := isSplit_cons (isSplit_nil t.specialTokens) (p := s) (b := false) hs (by simp) ?_ (by simp)
      · rwa [List.append_nil] at this
      · intro _ k _ u hu hpre
        rw [List.append_nil] at hpre
        exact hno u ((hreg u).1 hu) (hpre.isInfix.trans (List.drop_suffix k s).isInfix)
    have h1 := splitAll_of_isSplit (s.length + 1) s _ (by omega) hsplit
    unfold Tokenizer.encode encodeFuel encodeOrdinary Model.encode
    rw [encodeLoop_eq norm t dropout rnd _ _ _ _ _ h1]
    simp only [runPieces, encodePiece, Bool.false_eq_true, if_false, Nat.zero_add, List.nil_append]
    cases t.model.encodeR (t.preprocess norm s) dropout rnd <;> rfl

example : ∀ u ∈ givenSpecial (F := Int) [['<', 'e', '>']] [], ¬ u <:+: ['a', '<', 'e'] := by decide

/-- **C22** `encode_ordinary` emits base ids only; `encode` emits, piece by piece of the split, the id of the special
token for a special piece and, for an ordinary piece, base ids that `encode_ordinary` emits for it. -/
theorem C22_special_ids (norm : UnicodeForm → Str → Str) (vocab : List (ScoredToken F)) (ps : List Processor)
    (specials : List Str) (ops : List (Op F)) (s : Str) (dropout : F) (rnd : Nat → F) (ids : List Nat) :
    let t := build vocab ps specials ops
    (t.encodeOrdinary norm s dropout rnd = .ok ids → ∀ i ∈ ids, t.isBase i = true) ∧
    (t.encode norm s dropout rnd = .ok ids → ∃ pieces parts, IsSplit t.specialTokens s pieces ∧
      ids = parts.flatten ∧ parts.length = pieces.length ∧
      ∀ pr ∈ pieces.zip parts,
        (pr.1.2 = true → ∃ id, pr.2 = [id] ∧ t.isSpecial id = true ∧ t.idToSpecialToken id = some pr.1.1) ∧
        (pr.1.2 = false → (∀ i ∈ pr.2, t.isBase i = true) ∧
          ∃ rnd', t.encodeOrdinary norm pr.1.1 dropout rnd' = .ok pr.2)) := by
  intro t
  have h : t.WF := wf_build vocab ps specials ops
  constructor
  · intro he i hi
    have := (encode_base h he).1 i hi
    simpa [isBase] using this
  · intro he
    obtain ⟨pieces, parts, h1, h2, h3, h4⟩ := encode_parts h he
    refine ⟨pieces, parts, h1, h2, h3, ?_⟩
    intro pr hpr
    have hp := h4 pr hpr
    unfold PieceIds at hp
    constructor
    · intro hb
      rw [if_pos hb] at hp
      obtain ⟨i, hi, e⟩ := hp
      refine ⟨_, e, ?_, ?_⟩
      · unfold isSpecial
        rw [if_neg (by omega), show t.model.vocabSize + i - t.model.vocabSize = i by omega, hi]; rfl
      · unfold idToSpecialToken
        rw [if_neg (by omega), show t.model.vocabSize + i - t.model.vocabSize = i by omega, hi]
    · intro hb
      rw [if_neg (by simp [hb])] at hp
      obtain ⟨rnd', he'⟩ := hp
      refine ⟨?_, rnd', he'⟩
      intro i hi
      have := (encode_base h he').1 i hi
      simpa [isBase] using this

example : exTok.encode exNorm "a<e>".toList 0 exRnd = .ok [0, 4] ∧ exTok.isSpecial 4 = true := by decide

end

/-- **C24** `token_to_id` is defined exactly on the base tokens and the special tokens, is inverted by `id_to_token`, and
prefers the base token. -/
theorem C24_token_to_id (vocab : List (ScoredToken F)) (ps : List Processor) (specials : List Str) (ops : List (Op F))
    (v : Token) :
    let t := build vocab ps specials ops
    ((t.tokenToId v).isSome ↔ (∃ tok ∈ givenBase vocab ops, tok.value = v) ∨ ∃ s ∈ givenSpecial specials ops, enc s = v) ∧
    (∀ i, t.tokenToId v = some i → t.idToToken i = some v) ∧
    (∀ i, t.baseTokenToId v = some i → t.tokenToId v = some i) := by
  intro t
  have h : t.WF := wf_build vocab ps specials ops
  obtain ⟨hm, _, hreg, _⟩ := build_spec vocab ps specials ops
  have hm : t.model = Model.from_ (givenBase vocab ops) := hm
  have hreg : ∀ s, s ∈ t.specialTokens ↔ s ∈ givenSpecial specials ops := hreg
  obtain ⟨_, hid, _, htok, hnone, _⟩ := C10_lookups (givenBase vocab ops)
  have hb : ∀ v, t.baseTokenToId v = (Model.from_ (givenBase vocab ops)).tokenToId v := by
    intro v; unfold baseTokenToId; rw [hm]
  have hsize : t.model.vocabSize = (givenBase vocab ops).length := by rw [hm]; rfl
  have hex : ∀ v, (∃ i, t.baseTokenToId v = some i) ↔ ∃ tok ∈ givenBase vocab ops, tok.value = v := by
    intro v
    have h1 := (Model.wf_from (givenBase vocab ops)).isSome_iff v
    rw [hb]; exact h1
  refine ⟨?_, ?_, ?_⟩
  · unfold Tokenizer.tokenToId
    cases hbv : t.baseTokenToId v with
    | some i =>
      simp only [Option.isSome_some, true_iff]
      exact .inl ((hex v).1 ⟨i, hbv⟩)
    | none =>
      have hnb : ¬ ∃ tok ∈ givenBase vocab ops, tok.value = v := by
        intro hc
        obtain ⟨i, hi⟩ := (hex v).2 hc
        rw [hbv] at hi; simp at hi
      simp only
      cases hu : fromUtf8 v with
      | none =>
        simp only [Option.isSome_none, Bool.false_eq_true, false_iff, not_or]
        refine ⟨hnb, ?_⟩
        rintro ⟨s, _, rfl⟩
        rw [fromUtf8_enc] at hu; simp at hu
      | some s =>
        have hs := fromUtf8_iff.1 hu
        have : (∃ s' ∈ givenSpecial specials ops, enc s' = v) ↔ s ∈ givenSpecial specials ops := by
          constructor
          · rintro ⟨s', h1, h2⟩; rw [hs] at h2; exact enc_injective h2 ▸ h1
          · intro h1; exact ⟨s, h1, hs.symm⟩
        rw [this, ← hreg, ← h.isSome_iff]
        simp only [specialTokenToId, hnb, false_or]
        cases t.specialMap s <;> simp
  · intro i hi
    unfold Tokenizer.tokenToId at hi
    cases hbv : t.baseTokenToId v with
    | some j =>
      rw [hbv] at hi
      simp only [Option.some.injEq] at hi
      subst hi
      rw [hb] at hbv
      obtain ⟨⟨tok, h1, h2⟩, _⟩ := (htok v j).1 hbv
      have hlt : j < t.model.vocabSize := by rw [hsize]; exact (List.getElem?_eq_some_iff.1 h1).1
      unfold Tokenizer.idToToken idToSpecialToken idToBaseToken
      rw [if_pos hlt, hm]
      simp only [Option.map_none, hid, h1, Option.map_some, h2]
    | none =>
      rw [hbv] at hi
      simp only at hi
      cases hu : fromUtf8 v with
      | none => rw [hu] at hi; simp at hi
      | some s =>
        rw [hu] at hi
        simp only at hi
        unfold specialTokenToId at hi
        cases hsm : t.specialMap s with
        | none => rw [hsm] at hi; simp at hi
        | some j =>
          rw [hsm] at hi
          simp only [Option.map_some, Option.some.injEq] at hi
          subst hi
          unfold Tokenizer.idToToken idToSpecialToken
          rw [if_neg (by omega), Nat.add_sub_cancel, (h.map _ _).1 hsm]
          simp only [Option.map_some, ← fromUtf8_iff.1 hu]
  · intro i hi
    unfold Tokenizer.tokenToId
    rw [hi]

example : (build (F := Int) [⟨[97], 0, true⟩] [] [['a'], ['b']] []).tokenToId [97] = some 0 ∧
    (build (F := Int) [⟨[97], 0, true⟩] [] [['a'], ['b']] []).tokenToId [98] = some 2 := by decide

/-- **C26** `encode_ordinary` is the model's encoding of the text run through the processors first to last, and decoding
it gives exactly that processed text (post-processing changes nothing). -/
theorem C26_processors [ScoreOps F] (norm : UnicodeForm → Str → Str) (vocab : List (ScoredToken F)) (ps : List Processor)
    (specials : List Str) (ops : List (Op F)) (s : Str) (dropout : F) (rnd : Nat → F) (flag : Bool) :
    let t := build vocab ps specials ops
    let processed := ps.foldl (fun s p => p.preprocess norm s) s
    t.encodeOrdinary norm s dropout rnd = (Model.from_ (givenBase vocab ops)).encode processed dropout rnd ∧
    (∀ ids, t.encodeOrdinary norm s dropout rnd = .ok ids → t.decode ids flag = .ok processed) := by
  intro t processed
  have h : t.WF := wf_build vocab ps specials ops
  obtain ⟨hm, hp, _⟩ := build_spec vocab ps specials ops
  have he : t.encodeOrdinary norm s dropout rnd = (Model.from_ (givenBase vocab ops)).encode processed dropout rnd := by
    unfold encodeOrdinary preprocess
    rw [show t.model = _ from hm, show t.processors = ps from hp]
  refine ⟨he, ?_⟩
  intro ids hok
  rw [he] at hok
  rw [← hm] at hok
  obtain ⟨h1, h2⟩ := encode_base h hok
  rw [decode_base' h flag h1, h2]

example : exTok.encodeOrdinary exNorm "a\r\n\n".toList 0 exRnd = .ok [0, 3, 3] ∧
    exTok.decode [0, 3, 3] true = .ok "a\n\n".toList := by decide

/-- **C59** Decoding is piecewise at special tokens. -/
theorem C59_decode_piecewise (vocab : List (ScoredToken F)) (ps : List Processor) (specials : List Str) (ops : List (Op F))
    (flag : Bool) (xs ys : List Nat) (id : Nat) (sp : Str)
    (hid : (build vocab ps specials ops).idToSpecialToken id = some sp) :
    (build vocab ps specials ops).decode (xs ++ id :: ys) flag = (do
      let a ← (build vocab ps specials ops).decode xs flag
      let b ← (build vocab ps specials ops).decode ys flag
      pure (a ++ (if flag then sp else []) ++ b)) := by
  have h := wf_build vocab ps specials ops
  generalize build vocab ps specials ops = t at *
  have h1 : t.model.vocabSize ≤ id := by
    rcases Nat.lt_or_ge id t.model.vocabSize with hc | hc
    · simp [idToSpecialToken, hc] at hid
    · exact hc
  have h2 : t.specialTokens[id - t.model.vocabSize]? = some sp := by
    have : ¬ id < t.model.vocabSize := by omega
    simp only [idToSpecialToken, this, if_false] at hid
    exact hid
  have key : ∀ (n : Nat) (xs : List Nat), xs.length ≤ n → t.decode (xs ++ id :: ys) flag = (do
      let a ← t.decode xs flag
      let b ← t.decode ys flag
      pure (a ++ (if flag then sp else []) ++ b)) := by
    intro n
    induction n with
    | zero =>
      intro xs hn
      have : xs = [] := List.length_eq_zero_iff.1 (by omega)
      subst this
      rw [show ([] : List Nat) ++ id :: ys = [] ++ id :: ys from rfl, decode_special h flag (xs := []) (by simp) h1, h2,
        decode_base' h flag (ids := []) (by simp)]
      cases t.decode ys flag <;> rfl
    | succ n ih =>
      intro xs hn
      rcases base_run_split t.model.vocabSize xs with hb | ⟨zs, id', ws, e, h3, h4⟩
      · rw [decode_special h flag hb h1, h2, decode_base' h flag hb]
        cases t.decode ys flag <;> rfl
      · subst e
        rw [List.append_assoc, List.cons_append, decode_special h flag h3 h4, decode_special h flag h3 h4]
        cases t.specialTokens[id' - t.model.vocabSize]? with
        | none => rfl
        | some sp' =>
          simp only
          rw [ih ws (by simp at hn; omega)]
          cases t.decode ws flag with
          | error e => rfl
          | ok a =>
            cases t.decode ys flag with
            | error e => rfl
            | ok b => simp [Except.map]
  exact key _ xs (Nat.le_refl _)

example : exTok.idToSpecialToken 4 = some ['<', 'e', '>'] := by decide

/-- **C60** (first half) A special token that has an earlier registered special token as a prefix is never emitted. -/
theorem C60_shadowed_never_emitted [ScoreOps F] (norm : UnicodeForm → Str → Str) (vocab : List (ScoredToken F))
    (ps : List Processor) (specials : List Str) (ops : List (Op F)) (s : Str) (dropout : F) (rnd : Nat → F) (ids : List Nat)
    (a b c : List Str) (u sp : Str)
    (hreg : (build vocab ps specials ops).specialTokens = a ++ u :: b ++ sp :: c) (hpre : u <+: sp)
    (he : (build vocab ps specials ops).encode norm s dropout rnd = .ok ids) :
    ∀ id, (build vocab ps specials ops).specialTokenToId sp = some id → id ∉ ids := by
  have h := wf_build vocab ps specials ops
  intro id hid hmem
  obtain ⟨pieces, parts, h1, h2, h3, h4⟩ := (C22_special_ids norm vocab ps specials ops s dropout rnd ids).2 he
  have hinv := (C13_registry vocab ps specials ops).2.2
  generalize build vocab ps specials ops = t at *
  have hidsp := (hinv sp id).1 hid
  rw [h2] at hmem
  obtain ⟨part, hp1, hp2⟩ := List.mem_flatten.1 hmem
  obtain ⟨n, hn, rfl⟩ := List.getElem_of_mem hp1
  have hn' : n < pieces.length := by omega
  have hz : (pieces[n], parts[n]) ∈ pieces.zip parts := by
    rw [List.mem_iff_getElem]
    exact ⟨n, by simp; omega, by simp⟩
  obtain ⟨h5, h6⟩ := h4 _ hz
  cases hb : pieces[n].2 with
  | false =>
    have := (h6 hb).1 id hp2
    simp only [isBase, decide_eq_true_eq] at this
    simp [idToSpecialToken, this] at hidsp
  | true =>
    obtain ⟨id', e1, _, e2⟩ := h5 hb
    simp only at e1 e2
    rw [e1] at hp2
    simp only [List.mem_singleton] at hp2
    subst hp2
    rw [hidsp] at e2
    simp only [Option.some.injEq] at e2
    have hsplit : pieces = pieces.take n ++ (sp, true) :: pieces.drop (n + 1) := by
      conv => lhs; rw [← List.take_append_drop n pieces, List.drop_eq_getElem_cons hn']
      congr 2
      rw [e2, ← hb]
    have hf := h1.special _ _ _ hsplit
    have hnd := h.nodup
    have hu : FirstMatch t.specialTokens (sp ++ pieceText (pieces.drop (n + 1))) sp := hf
    obtain ⟨_, bef, aft, e3, e4⟩ := hu
    -- `u` occurs before `sp` in the registry
    have hub : u ∈ bef := by
      rw [hreg] at e3 hnd
      have hne : ∀ {l1 l2 l3 l4 : List Str}, (l1 ++ sp :: l2).Nodup → l1 ++ sp :: l2 = l3 ++ sp :: l4 → l1 = l3 := by
        intro l1 l2 l3 l4 hd e
        rcases List.append_eq_append_iff.1 e with ⟨w, h1, h2⟩ | ⟨w, h1, h2⟩
        · cases w with
          | nil => simpa using h1.symm
          | cons y w =>
            exfalso
            simp only [List.cons_append, List.cons.injEq] at h2
            rw [e, h1, ← h2.1] at hd
            rw [List.nodup_append] at hd
            exact hd.2.2 sp (by simp) sp (by simp) rfl
        · cases w with
          | nil => simpa using h1
          | cons y w =>
            exfalso
            simp only [List.cons_append, List.cons.injEq] at h2
            rw [h1, ← h2.1] at hd
            rw [List.nodup_append] at hd
            exact hd.2.2 sp (by simp) sp (by simp) rfl
      have := hne hnd e3
      rw [← this]; simp
    exact e4 u hub (hpre.trans (List.prefix_append sp _))

/-- **C60** (second half) A non-empty special token with no earlier registered prefix is emitted when it is the whole input. -/
theorem C60_unshadowed_emitted [ScoreOps F] (norm : UnicodeForm → Str → Str) (vocab : List (ScoredToken F))
    (ps : List Processor) (specials : List Str) (ops : List (Op F)) (dropout : F) (rnd : Nat → F)
    (a c : List Str) (sp : Str) (hne : sp ≠ [])
    (hreg : (build vocab ps specials ops).specialTokens = a ++ sp :: c) (hpre : ∀ u ∈ a, ¬ u <+: sp) :
    ∃ id, (build vocab ps specials ops).specialTokenToId sp = some id ∧
      (build vocab ps specials ops).encode norm sp dropout rnd = .ok [id] := by
  have h := wf_build vocab ps specials ops
  generalize build vocab ps specials ops = t at *
  have hsplit : IsSplit t.specialTokens sp [(sp, true)] := by
    have := isSplit_cons (isSplit_nil t.specialTokens) (p := sp) (b := true) hne ?_ (by simp) (by simp)
    · rwa [List.append_nil] at this
    · intro _
      rw [List.append_nil]
      exact ⟨List.prefix_refl _, a, c, hreg, hpre⟩
  have h1 := splitAll_of_isSplit (sp.length + 1) sp _ (by omega) hsplit
  have hm : t.specialMap sp = some a.length := (h.map _ _).2 (by rw [hreg]; simp)
  refine ⟨a.length + t.model.vocabSize, by simp [specialTokenToId, hm], ?_⟩
  unfold Tokenizer.encode encodeFuel
  rw [encodeLoop_eq norm t dropout rnd _ _ _ _ _ h1]
  simp [runPieces, encodePiece, hm, Nat.add_comm]

example : (build (F := Int) [⟨[97], 0, true⟩] [] [['<'], ['<', 'e']] []).encode exNorm ['<', 'e'] 0 exRnd =
    .error (.noPath 1 1) := by decide
example : (build (F := Int) [⟨[97], 0, true⟩] [] [['<', 'e'], ['<']] []).encode exNorm ['<', 'e'] 0 exRnd = .ok [1] := by
  decide

end Tokengeex

import Verif.Proofs.U32
/-
C56: 32-bit ids.
-/
namespace Tokengeex
open Tokenizer

variable {F : Type}

/-- **C56** Consider any tokenizer, however built, with fewer than 2³² base tokens, at most 2³² tokens in all, and no token of
2³² bytes or more.  Building it with 32-bit ids gives the same tokenizer as with unbounded ids; encoding, decoding and all
lookups then give the same results, with and without overflow checks; and every id they return is below 2³². -/
theorem C56_lossless [ScoreOps F] (vocab : List (ScoredToken F)) (ps : List Processor) (specials : List Str) (ops : List (Op F))
    (hbase : (build vocab ps specials ops).baseVocabSize < 2 ^ 32) (hall : (build vocab ps specials ops).vocabSize ≤ 2 ^ 32)
    (hlen : ∀ tok ∈ (build vocab ps specials ops).model.vocab, tok.value.length < 2 ^ 32) :
    let t := build vocab ps specials ops
    build32 vocab ps specials ops = t ∧
    (∀ checked norm fuel input dropout rnd,
      encodeFuel32 checked norm t fuel input dropout rnd = encodeFuel norm t fuel input dropout rnd) ∧
    (∀ ids includeSpecial, t.decode32 ids includeSpecial = t.decode ids includeSpecial) ∧
    (∀ checked token, t.tokenToId32 checked token = .ok (t.tokenToId token)) ∧
    (∀ checked token, t.specialTokenToId32 checked token = .ok (t.specialTokenToId token)) ∧
    (∀ id, t.idToToken32 id = t.idToToken id ∧ t.idToSpecialToken32 id = t.idToSpecialToken id ∧
      t.model.idToToken32 id = t.idToBaseToken id ∧ t.isSpecial32 id = t.isSpecial id ∧ t.isBase32 id = t.isBase id) ∧
    (∀ token id, t.tokenToId token = some id → id < 2 ^ 32) := by
  intro t
  have hwf : t.WF := wf_build vocab ps specials ops
  have hb : t.model.vocabSize < 2 ^ 32 := hbase
  have ha : t.model.vocabSize + t.specialTokens.length ≤ 2 ^ 32 := hall
  have hmap : ∀ s id, t.specialMap s = some id → id < t.specialTokens.length := by
    intro s id h
    have := (hwf.map s id).1 h
    rw [List.getElem?_eq_some_iff] at this
    exact this.1
  have hsum : ∀ s id, t.specialMap s = some id → t.model.vocabSize + id < 2 ^ 32 := fun s id h => by
    have := hmap s id h
    omega
  have hsp : ∀ checked token, t.specialTokenToId32 checked token = .ok (t.specialTokenToId token) := by
    intro checked token
    unfold specialTokenToId32 specialTokenToId
    cases hs : t.specialMap token with
    | none => rfl
    | some id =>
      dsimp only
      rw [u32_eq hb, addU32, if_pos (by have := hsum _ _ hs; omega)]
      rfl
  have hsi : ∀ id, t.idToSpecialToken32 id = t.idToSpecialToken id := by
    intro id
    rw [idToSpecialToken32, idToSpecialToken, u32_eq hb]
  have hbi : ∀ id, t.model.idToToken32 id = t.idToBaseToken id := by
    intro id
    rw [Model.idToToken32, idToBaseToken, Model.idToToken, u32_eq (show t.model.vocab.length < 2 ^ 32 from hb)]
  refine ⟨?_, ?_, ?_, ?_, hsp, ?_, ?_⟩
  · have hgrow := applyAll_growth ops (Tokenizer.new (Model.from_ vocab) ps specials)
    obtain ⟨⟨more, hm⟩, hs⟩ := hgrow
    have hnew : (Tokenizer.new (Model.from_ vocab) ps specials).model = Model.from_ vocab :=
      (addSpecialTokens_growth specials _).1
    rw [hnew] at hm
    have hm' : t.model.vocab = vocab ++ more := hm
    have e1 : Model.from32 vocab = Model.from_ vocab := by
      refine Model.from32_eq vocab ?_ fun tok ht => hlen tok ?_
      · have : t.model.vocab.length < 2 ^ 32 := hb
        rw [hm', List.length_append] at this
        omega
      · show tok ∈ t.model.vocab
        rw [hm']
        exact List.mem_append_left _ ht
    have e2 : new32 (Model.from32 vocab) ps specials = Tokenizer.new (Model.from_ vocab) ps specials := by
      rw [e1]
      refine addSpecialTokens32_eq specials _ (Nat.le_trans hs ?_)
      show t.specialTokens.length ≤ _
      omega
    rw [build32, e2]
    exact applyAll32_eq ops _ (Nat.le_of_lt hb) (by show t.specialTokens.length ≤ _; omega) hlen
  · intro checked norm fuel input dropout rnd
    exact encodeLoop32_eq checked norm t hb hsum dropout rnd fuel input 0 []
  · intro ids inc
    exact decodeLoop32_eq t hb inc _ _ _
  · intro checked token
    unfold tokenToId32 tokenToId
    cases t.baseTokenToId token with
    | some id => rfl
    | none =>
      dsimp only
      cases fromUtf8 token with
      | none => rfl
      | some v =>
        dsimp only
        rw [hsp]
        cases t.specialTokenToId v <;> rfl
  · intro id
    refine ⟨?_, hsi id, hbi id, ?_, ?_⟩
    · rw [Tokenizer.idToToken32, Tokenizer.idToToken, hsi, hbi]
      rfl
    · rw [isSpecial32, isSpecial, u32_eq hb]
    · rw [isBase32, isBase, u32_eq hb]
  · intro token id h
    unfold tokenToId at h
    cases hbt : t.baseTokenToId token with
    | some i =>
      rw [hbt] at h
      cases h
      have h1 := hbt
      unfold baseTokenToId Model.tokenToId at h1
      rw [hwf.model] at h1
      have := (Model.wf_from _).id_lt h1
      exact Nat.lt_trans this hb
    | none =>
      rw [hbt] at h
      dsimp only at h
      cases hf : fromUtf8 token with
      | none => rw [hf] at h; cases h
      | some v =>
        rw [hf] at h
        dsimp only at h
        cases hs : t.specialTokenToId v with
        | none => rw [hs] at h; cases h
        | some j =>
          rw [hs] at h
          cases h
          unfold specialTokenToId at hs
          obtain ⟨k, hk, rfl⟩ := Option.map_eq_some_iff.1 hs
          have := hsum _ _ hk
          omega

/-- The hypotheses are met by every tokenizer of ordinary size. -/
example : let t := build [⟨[97], (0 : Int), false⟩] [] [['b']] []
    t.baseVocabSize < 2 ^ 32 ∧ t.vocabSize ≤ 2 ^ 32 ∧ ∀ tok ∈ t.model.vocab, tok.value.length < 2 ^ 32 := by
  decide

/-- The bound on base tokens is sharp: with exactly 2³² of them (all ids are then in use) and no special tokens, every
non-empty list of ids fails to decode, no id is a base token and no id has a token, because the number of tokens becomes 0
as a `u32`. -/
theorem C56_limit (vocab : List (ScoredToken F)) (ps : List Processor) (hn : vocab.length = 2 ^ 32) :
    let t := build32 vocab ps [] []
    (∀ id ids includeSpecial, t.decode32 (id :: ids) includeSpecial = .error (.outOfBounds id)) ∧
    (∀ id, t.isBase32 id = false ∧ t.idToToken32 id = none) := by
  intro t
  have hv : t.model.vocab = vocab := rfl
  have hs : t.specialTokens = [] := rfl
  have hz : u32 t.model.vocabSize = 0 := by rw [Model.vocabSize, hv, hn]; rfl
  refine ⟨?_, ?_⟩
  · intro id ids inc
    rw [Tokenizer.decode32, List.length_cons, Tokenizer.decodeLoop32, hz, hs]
    rfl
  · intro id
    refine ⟨?_, ?_⟩
    · rw [isBase32, hz]; simp
    · rw [Tokenizer.idToToken32, idToSpecialToken32, hz, hs, Model.idToToken32]
      have : u32 t.model.vocab.length = 0 := hz
      rw [this]
      rfl

/-- The bound on all tokens is sharp: with 2³² - 1 base tokens and two special tokens, the id of the second does not fit; a
build with overflow checks panics, and one without returns 0, the id of the first base token. -/
theorem C56_overflow (vocab : List (ScoredToken F)) (ps : List Processor) (hn : vocab.length = 2 ^ 32 - 1) :
    let t := build32 vocab ps [['a'], ['b']] []
    t.specialTokenToId32 true ['b'] = .error .panic ∧ t.specialTokenToId32 false ['b'] = .ok (some 0) := by
  intro t
  have hz : u32 t.model.vocabSize = 2 ^ 32 - 1 := by
    have : t.model.vocabSize = vocab.length := rfl
    rw [this, hn]; rfl
  have hm : t.specialMap ['b'] = some 1 := rfl
  constructor
  all_goals
    rw [specialTokenToId32, hm, hz]
    rfl

/-- A vocabulary of any length exists. -/
example : (List.replicate (2 ^ 32) (⟨[97], 0, false⟩ : ScoredToken Int)).length = 2 ^ 32 := List.length_replicate

end Tokengeex

import Verif.Proofs.Encode
import Verif.Proofs.Utf8
/-
C01-C11: the unigram model (src/model.rs).

Models are built by `Model.from_ vocab`; by C09 every model reachable through `add_tokens` is of this form.
-/
namespace Tokengeex
open Spec ScoreOps Model

variable {F : Type}

/-! A small vocabulary used in the examples: it has a duplicate (`"a"`), an empty token, a token that is not
UTF-8 (the first byte of `"é"`) and one-byte tokens. -/

def exVocab : List (ScoredToken Int) :=
  [⟨[97], -3, true⟩, ⟨[98], -2, false⟩, ⟨[97, 98], -4, false⟩, ⟨[97], -1, false⟩, ⟨[], 7, false⟩,
   ⟨[0xC3], -2, false⟩, ⟨[0xA9, 97], -2, false⟩]

def exRnd : Nat → Int := fun _ => 0

section encode
variable [ScoreOps F]

theorem encode_ok_iff {m : Model F} {s : Str} {d : F} {rnd : Nat → F} {ids : List Nat} :
    m.encode s d rnd = .ok ids ↔ ∃ k, m.encodeBytes (enc s) d rnd = .ok (ids, k) := by
  unfold encode encodeR
  cases h : m.encodeBytes (enc s) d rnd with
  | error e => simp [Except.map]
  | ok p =>
    obtain ⟨i, k⟩ := p
    simp only [Except.map, Except.ok.injEq, Prod.mk.injEq]
    constructor
    · rintro rfl; exact ⟨k, rfl, rfl⟩
    · rintro ⟨k, h, _⟩; exact h

theorem encode_error_iff {m : Model F} {s : Str} {d : F} {rnd : Nat → F} {e : Err} :
    m.encode s d rnd = .error e ↔ m.encodeBytes (enc s) d rnd = .error e := by
  unfold encode encodeR
  cases h : m.encodeBytes (enc s) d rnd with
  | error e => simp [Except.map]
  | ok p => simp [Except.map]

/-- What is behind every successful `encode`. -/
theorem encode_chain {vocab : List (ScoredToken F)} {s : Str} {d : F} {rnd : Nat → F} {ids : List Nat}
    (h : (from_ vocab).encode s d rnd = .ok ids) :
    Chain ((from_ vocab).edge (enc s)) (enc s).length ids := by
  obtain ⟨k, hk⟩ := encode_ok_iff.1 h
  rcases encodeBytes_cases (wf_from vocab) d rnd (enc s) with ⟨_, ids', k', h1, h2, _⟩ | ⟨_, _, h1⟩
  · rw [hk] at h1
    simp only [Except.ok.injEq, Prod.mk.injEq] at h1
    rw [h1.1]; exact h2
  · rw [hk] at h1; simp at h1

/-- **C01** Encoding is lossless on bytes: the emitted ids are existing vocabulary entries (`Spells` says every id
has an entry) whose bytes concatenate to exactly the UTF-8 bytes of the input.  All vocabularies, inputs, dropout
values and random sequences. -/
theorem C01_encode_lossless (vocab : List (ScoredToken F)) (s : Str) (dropout : F) (rnd : Nat → F) (ids : List Nat)
    (h : (from_ vocab).encode s dropout rnd = .ok ids) :
    (∀ i ∈ ids, i < vocab.length) ∧ Spells vocab ids (enc s) := by
  obtain ⟨toks, h1, h2, h3⟩ := (chain_iff (wf_from vocab) (enc s) _ (Nat.le_refl _) ids).1 (encode_chain h)
  refine ⟨?_, toks, h1, by simpa using h2⟩
  intro i hi
  have : (fun j => vocab[j]?) i ∈ ids.map (fun j => vocab[j]?) := List.mem_map_of_mem hi
  rw [show ids.map (fun j => vocab[j]?) = toks.map some from h1] at this
  obtain ⟨t, _, ht⟩ := List.mem_map.1 this
  exact (List.getElem?_eq_some_iff.1 ht.symm).1

/-- Non-vacuity of C01/C02/C05: an input whose best segmentation cuts the character `é` in half. -/
example : (from_ exVocab).encode ['a', 'b', 'é', 'a'] 0 exRnd = .ok [3, 1, 5, 6] := by decide

omit [ScoreOps F] in
/-- Auxiliary: `decode` on ids that spell `bs`. -/
theorem decode_spells (vocab : List (ScoredToken F)) (ids : List Nat) (bs : List UInt8) (h : Spells vocab ids bs) :
    (from_ vocab).decode ids = .ok (lossy bs) := by
  obtain ⟨toks, h1, h2⟩ := h
  have key : ∀ (ids : List Nat) (toks : List (ScoredToken F)) (acc : List UInt8),
      ids.map (fun i => vocab[i]?) = toks.map some →
      decodeLoop (from_ vocab) ids acc = .ok (acc ++ (toks.map (·.value)).flatten) := by
    intro ids
    induction ids with
    | nil =>
      intro toks acc h
      have : toks = [] := by simpa using h.symm
      subst this; simp [decodeLoop]
    | cons i ids ih =>
      intro toks acc h
      cases toks with
      | nil => simp at h
      | cons t toks =>
        simp only [List.map_cons, List.cons.injEq] at h
        have hlt := (List.getElem?_eq_some_iff.1 h.1).1
        unfold decodeLoop
        rw [if_neg (by simp [vocabSize]; omega), idx_of_getElem? (show (from_ vocab).vocab[i]? = some t from h.1)]
        simp only [res_bind_ok, ih toks _ h.2, List.map_cons, List.flatten_cons, List.append_assoc]
  unfold decode
  rw [key ids toks [] h1, List.nil_append, h2]
  rfl

/-- **C02** `decode` inverts `encode` on every string. -/
theorem C02_decode_encode (vocab : List (ScoredToken F)) (s : Str) (dropout : F) (rnd : Nat → F) (ids : List Nat)
    (h : (from_ vocab).encode s dropout rnd = .ok ids) : (from_ vocab).decode ids = .ok s := by
  rw [decode_spells vocab ids _ (C01_encode_lossless vocab s dropout rnd ids h).2, lossy_enc]

example : (from_ exVocab).decode [3, 1, 5, 6] = .ok ['a', 'b', 'é', 'a'] :=
  C02_decode_encode exVocab ['a', 'b', 'é', 'a'] 0 exRnd _ (by decide)

omit [ScoreOps F] in
/-- Canonical segmentations exist exactly for segmentable byte strings. -/
theorem segmentable_iff_chain {vocab : List (ScoredToken F)} {bs : List UInt8} :
    Segmentable vocab bs ↔ ∃ ids, Chain ((from_ vocab).edge bs) bs.length ids := by
  have hm := wf_from vocab
  constructor
  · rintro ⟨pieces, h1, h2⟩
    -- choose the canonical id of every piece
    have key : ∀ (pieces : List (List UInt8)), (∀ p ∈ pieces, p ≠ [] ∧ ∃ t ∈ vocab, t.value = p) →
        ∃ (ids : List Nat) (toks : List (ScoredToken F)), ids.map (fun j => vocab[j]?) = toks.map some ∧
          toks.map (·.value) = pieces ∧
          ∀ j t, j ∈ ids → vocab[j]? = some t → t.value ≠ [] ∧ (from_ vocab).tokenToIds t.value = some j := by
      intro pieces
      induction pieces with
      | nil => intro _; exact ⟨[], [], rfl, rfl, by simp⟩
      | cons p pieces ih =>
        intro h
        obtain ⟨ids, toks, h1, h2, h3⟩ := ih (fun p hp => h p (by simp [hp]))
        obtain ⟨hne, ht⟩ := h p (by simp)
        obtain ⟨i, hi⟩ := (hm.isSome_iff p).2 ht
        obtain ⟨t, ht1, ht2⟩ := hm.id_value hi
        refine ⟨i :: ids, t :: toks, by simp only [List.map_cons, h1]; rw [show vocab[i]? = some t from ht1],
          by simp [ht2, h2], ?_⟩
        intro j t' hj ht'
        rcases List.mem_cons.1 hj with rfl | hj
        · rw [show vocab[j]? = some t from ht1] at ht'
          simp only [Option.some.injEq] at ht'
          subst ht'
          rw [ht2]; exact ⟨hne, hi⟩
        · exact h3 j t' hj ht'
    obtain ⟨ids, toks, h3, h4, h5⟩ := key pieces h2
    exact ⟨ids, (chain_iff hm bs _ (Nat.le_refl _) ids).2 ⟨toks, h3, by rw [h4, h1]; simp, h5⟩⟩
  · rintro ⟨ids, hc⟩
    obtain ⟨toks, h1, h2, h3⟩ := (chain_iff hm bs _ (Nat.le_refl _) ids).1 hc
    refine ⟨toks.map (·.value), by simpa using h2, ?_⟩
    intro p hp
    obtain ⟨t, ht, rfl⟩ := List.mem_map.1 hp
    have : some t ∈ toks.map some := List.mem_map_of_mem ht
    rw [← h1] at this
    obtain ⟨j, hj, hjt⟩ := List.mem_map.1 this
    exact ⟨(h3 j t hj hjt).1, t, List.mem_of_getElem? hjt, rfl⟩

/-- **C03** Without dropout, `encode` succeeds exactly when the input can be cut into non-empty vocabulary entries,
and the only failure is `NoPath(len, len)`: no other error, no panic, no divergence. -/
theorem C03_encode_complete (vocab : List (ScoredToken F)) (s : Str) (dropout : F) (rnd : Nat → F)
    (hd : le dropout zero = true) :
    ((∃ ids, (from_ vocab).encode s dropout rnd = .ok ids) ↔ Segmentable vocab (enc s)) ∧
    (¬ Segmentable vocab (enc s) →
      (from_ vocab).encode s dropout rnd = .error (.noPath (enc s).length (enc s).length)) := by
  have hm := wf_from vocab
  rw [segmentable_iff_chain]
  rcases encodeBytes_cases hm dropout rnd (enc s) with ⟨_, ids, k, h1, h2, _⟩ | ⟨hn, _, h1⟩
  · have := encode_ok_iff.2 ⟨k, h1⟩
    exact ⟨⟨fun _ => ⟨ids, h2⟩, fun _ => ⟨ids, this⟩⟩, fun h => absurd ⟨ids, h2⟩ h⟩
  · have he := encode_error_iff.2 h1
    refine ⟨⟨?_, ?_⟩, fun _ => he⟩
    · rintro ⟨ids, h⟩; rw [he] at h; simp at h
    · rintro ⟨ids, hc⟩
      have := chain_reach hm hd rnd (enc s) hc
      rw [hn] at this; simp at this

/-- Whatever the dropout, the only possible outcomes are `Ok` and `NoPath(len, len)`. -/
theorem C03_encode_outcomes (vocab : List (ScoredToken F)) (s : Str) (dropout : F) (rnd : Nat → F) :
    (∃ ids, (from_ vocab).encode s dropout rnd = .ok ids) ∨
    (from_ vocab).encode s dropout rnd = .error (.noPath (enc s).length (enc s).length) := by
  rcases encodeBytes_cases (wf_from vocab) dropout rnd (enc s) with ⟨_, ids, k, h1, _⟩ | ⟨_, _, h1⟩
  · exact .inl ⟨ids, encode_ok_iff.2 ⟨k, h1⟩⟩
  · exact .inr (encode_error_iff.2 h1)

example : (from_ exVocab).encode ['a', 'é'] 0 exRnd = .error (.noPath 3 3) := by decide
example : Segmentable exVocab (enc ['a', 'b']) := ⟨[[97, 98]], by decide, by decide⟩

/-- **C04** If the vocabulary has a one-byte token for every byte of the input, `encode` succeeds for every dropout
and every outcome of the random draws. -/
theorem C04_dropout_total (vocab : List (ScoredToken F)) (s : Str) (dropout : F) (rnd : Nat → F)
    (hc : BytesCovered vocab (enc s)) : ∃ ids, (from_ vocab).encode s dropout rnd = .ok ids := by
  have hm := wf_from vocab
  rcases encodeBytes_cases hm dropout rnd (enc s) with ⟨_, ids, k, h1, _⟩ | ⟨hn, _, _⟩
  · exact ⟨ids, encode_ok_iff.2 ⟨k, h1⟩⟩
  · have := pTable_covered hm dropout rnd (enc s) hc _ (Nat.le_refl _)
    rw [hn] at this; simp at this

example : BytesCovered exVocab (enc ['a', 'b', 'a']) := by unfold BytesCovered; decide
example : (from_ exVocab).encode ['a', 'b', 'a'] 5 exRnd = .ok [3, 1, 3] := by decide

/-- **C05** Without dropout, no segmentation of the input into non-empty tokens (each named by the id that
`token_to_id` gives for its bytes, i.e. the last index) has a larger total score than the one `encode` returns.
`good` is the set of totals and `tok` the set of scores for which the laws of `ScoreLaws` hold. -/
theorem C05_encode_optimal (good tok : F → Prop) (laws : ScoreLaws F good tok)
    (vocab : List (ScoredToken F)) (hgood : ∀ t ∈ vocab, tok t.score) (s : Str) (dropout : F) (rnd : Nat → F)
    (hd : le dropout zero = true) (ids : List Nat) (h : (from_ vocab).encode s dropout rnd = .ok ids)
    (other : List Nat) (hs : Spells vocab other (enc s))
    (hcan : ∀ i ∈ other, ∃ v, v ≠ [] ∧ LastIndex vocab v i) :
    lt (totalScore vocab ids) (totalScore vocab other) = false := by
  have hm := wf_from vocab
  obtain ⟨k, hk⟩ := encode_ok_iff.1 h
  rcases encodeBytes_cases hm dropout rnd (enc s) with ⟨_, ids', k', h1, _, h3⟩ | ⟨_, _, h1⟩
  · rw [hk] at h1
    simp only [Except.ok.injEq, Prod.mk.injEq] at h1
    rw [totalScore_eq, totalScore_eq, h1.1, show scoreOf vocab = scoreOf (from_ vocab).vocab from rfl, h3]
    refine chain_dominated laws hm hgood hd rnd (enc s) ?_
    obtain ⟨toks, e1, e2⟩ := hs
    refine (chain_iff hm (enc s) _ (Nat.le_refl _) other).2 ⟨toks, e1, by simpa using e2, ?_⟩
    intro j t hj ht
    obtain ⟨v, hv, hl⟩ := hcan j hj
    obtain ⟨t', ht', hv'⟩ := hl.1
    rw [show vocab[j]? = some t from ht] at ht'
    simp only [Option.some.injEq] at ht'
    subst ht'
    subst hv'
    exact ⟨hv, (hm.ids _ _).2 hl⟩
  · rw [hk] at h1; simp at h1

omit [ScoreOps F] in
theorem lastIndex_of_nodup {vocab : List (ScoredToken F)} (hnd : NoDuplicates vocab) {i : Nat} {t : ScoredToken F}
    (h : vocab[i]? = some t) : LastIndex vocab t.value i := by
  refine ⟨⟨t, h, rfl⟩, ?_⟩
  intro j t' hj ht' he
  unfold NoDuplicates at hnd
  have h1 : (vocab.map (·.value))[i]? = some t.value := by simp [h]
  have h2 : (vocab.map (·.value))[j]? = some t.value := by simp [ht', he]
  have hi := (List.getElem?_eq_some_iff.1 h1)
  have hj' := (List.getElem?_eq_some_iff.1 h2)
  obtain ⟨hi1, hi2⟩ := hi
  obtain ⟨hj1, hj2⟩ := hj'
  exact List.pairwise_iff_getElem.1 hnd i j hi1 hj1 hj (by rw [hi2, hj2])

/-- **C05** for duplicate-free vocabularies: every segmentation into non-empty entries is a competitor. -/
theorem C05_encode_optimal_nodup (good tok : F → Prop) (laws : ScoreLaws F good tok)
    (vocab : List (ScoredToken F)) (hgood : ∀ t ∈ vocab, tok t.score) (hnd : NoDuplicates vocab)
    (hne : ∀ t ∈ vocab, t.value ≠ []) (s : Str) (dropout : F) (rnd : Nat → F)
    (hd : le dropout zero = true) (ids : List Nat) (h : (from_ vocab).encode s dropout rnd = .ok ids)
    (other : List Nat) (hs : Spells vocab other (enc s)) :
    lt (totalScore vocab ids) (totalScore vocab other) = false := by
  refine C05_encode_optimal good tok laws vocab hgood s dropout rnd hd ids h other hs ?_
  intro i hi
  obtain ⟨toks, e1, _⟩ := hs
  have : (fun j => vocab[j]?) i ∈ other.map (fun j => vocab[j]?) := List.mem_map_of_mem hi
  rw [e1] at this
  obtain ⟨t, _, ht⟩ := List.mem_map.1 this
  exact ⟨t.value, hne t (List.mem_of_getElem? ht.symm), lastIndex_of_nodup hnd ht.symm⟩

end encode

/-- The laws hold for exact integer scores. -/
theorem int_laws : ScoreLaws Int (fun _ => True) (fun _ => True) where
  zero_good := trivial
  zero_tok := trivial
  add_good := fun _ _ => trivial
  irrefl := fun {a} _ => by simp [ScoreOps.lt]
  trans := fun {a b c} _ _ _ h1 h2 => by simp [ScoreOps.lt] at *; omega
  asymm := fun {a b} _ _ h => by simp [ScoreOps.lt] at *; omega
  add_mono := fun {a b c} _ _ _ h => by simp [ScoreOps.lt, ScoreOps.add] at *; omega

example : totalScore exVocab [3, 1] = -3 ∧ totalScore exVocab [2] = -4 ∧
    Spells exVocab [2] (enc ['a', 'b']) ∧ ∀ i ∈ [2], ∃ v, v ≠ [] ∧ LastIndex exVocab v i := by
  refine ⟨by decide, by decide, ⟨[⟨[97, 98], -4, false⟩], by decide, by decide⟩, ?_⟩
  intro i hi
  simp only [List.mem_singleton] at hi
  subst hi
  refine ⟨[97, 98], by decide, ⟨_, rfl, rfl⟩, ?_⟩
  intro j t hj ht
  have hj' : j < 7 := (List.getElem?_eq_some_iff.1 ht).1
  have : j = 3 ∨ j = 4 ∨ j = 5 ∨ j = 6 := by omega
  rcases this with rfl | rfl | rfl | rfl <;> simp [exVocab] at ht <;> subst ht <;> simp

/-- With duplicated entries the restriction to canonical ids cannot be dropped: a better-scored earlier duplicate
is never used. -/
theorem C05_duplicates_shadow_false :
    ¬ ∀ (vocab : List (ScoredToken Int)) (s : Str) (ids other : List Nat),
      (from_ vocab).encode s 0 exRnd = .ok ids → Spells vocab other (enc s) →
      lt (totalScore vocab ids) (totalScore vocab other) = false := by
  intro h
  have := h [⟨[97], 5, false⟩, ⟨[97], 1, false⟩] ['a'] [1] [0] (by decide) ⟨[⟨[97], 5, false⟩], by decide, by decide⟩
  revert this
  decide

section encode2
variable [ScoreOps F]

/-- **C06** (first half) With `dropout <= 0.0` the result does not depend on the random generator. -/
theorem C06_deterministic (vocab : List (ScoredToken F)) (s : Str) (dropout : F) (rnd rnd' : Nat → F)
    (hd : le dropout zero = true) :
    (from_ vocab).encode s dropout rnd = (from_ vocab).encode s dropout rnd' := by
  unfold encode encodeR
  rw [encodeBytes_rnd hd rnd rnd']

/-- **C06** (second half) If no draw exceeds the dropout (dropout ≥ 1 and draws in `[0, 1)`), every emitted token is
exactly one byte long. -/
theorem C06_full_dropout (vocab : List (ScoredToken F)) (s : Str) (dropout : F) (rnd : Nat → F)
    (hd : le dropout zero = false) (hr : ∀ k, lt dropout (rnd k) = false) (ids : List Nat)
    (h : (from_ vocab).encode s dropout rnd = .ok ids) :
    ∀ i ∈ ids, ∃ t b, vocab[i]? = some t ∧ t.value = [b] := by
  have hm := wf_from vocab
  obtain ⟨k, hk⟩ := encode_ok_iff.1 h
  rcases encodeBytes_cases' hm dropout rnd (enc s) (final_table_dropAll hm (enc s) hd hr) with
    ⟨_, ids', k', h1, h2, h3⟩ | ⟨_, _, h1⟩
  · rw [hk] at h1
    simp only [Except.ok.injEq, Prod.mk.injEq] at h1
    rw [h1.1]
    clear h1 hk h h3
    generalize (enc s).length = n at h2
    induction h2 with
    | nil => simp
    | @snoc p i id ids hc he ih =>
      intro j hj
      rcases List.mem_append.1 hj with hj | hj
      · exact ih j hj
      · simp only [List.mem_singleton] at hj
        subst hj
        split at he
        · rename_i hi
          obtain ⟨t, ht, hv⟩ := hm.id_value (edge_tok he)
          have hlt := edge_lt he
          refine ⟨t, (enc s)[p]'(by omega), ht, ?_⟩
          rw [hv, show i - p = 1 by omega, List.drop_eq_getElem_cons (by omega), List.take_succ_cons,
            List.take_zero]
        · simp at he
  · rw [hk] at h1; simp at h1

example : le (5 : Int) zero = false ∧ (∀ k, lt (5 : Int) (exRnd k) = false) ∧
    (from_ exVocab).encode ['a', 'b'] 5 exRnd = .ok [3, 1] :=
  ⟨by decide, fun _ => by simp [exRnd, ScoreOps.lt], by decide⟩

/-- **C07** Every emitted id is the last index of its own (non-empty) byte value, i.e. what `token_to_id` returns
for it. -/
theorem C07_encode_canonical (vocab : List (ScoredToken F)) (s : Str) (dropout : F) (rnd : Nat → F) (ids : List Nat)
    (h : (from_ vocab).encode s dropout rnd = .ok ids) :
    ∀ i ∈ ids, ∃ v, v ≠ [] ∧ LastIndex vocab v i ∧ (from_ vocab).tokenToId v = some i := by
  have hm := wf_from vocab
  obtain ⟨toks, h1, h2, h3⟩ := (chain_iff hm (enc s) _ (Nat.le_refl _) ids).1 (encode_chain h)
  intro i hi
  have : (fun j => vocab[j]?) i ∈ ids.map (fun j => vocab[j]?) := List.mem_map_of_mem hi
  rw [show ids.map (fun j => vocab[j]?) = toks.map some from h1] at this
  obtain ⟨t, _, ht⟩ := List.mem_map.1 this
  obtain ⟨hne, hid⟩ := h3 i t hi ht.symm
  exact ⟨t.value, hne, (hm.ids _ _).1 hid, hid⟩

example : (from_ exVocab).encode ['a'] 0 exRnd = .ok [3] ∧ (from_ exVocab).tokenToId [97] = some 3 := by decide

end encode2

/-- **C08** `common_prefix_search` lists exactly the pairs (canonical id, length) of the non-empty vocabulary values
that are prefixes of the text, each once, in strictly increasing length. -/
theorem C08_common_prefix_search (vocab : List (ScoredToken F)) (s : List UInt8) :
    (∀ id len, (id, len) ∈ (from_ vocab).commonPrefixSearch s ↔
      0 < len ∧ len ≤ s.length ∧ LastIndex vocab (s.take len) id) ∧
    ((from_ vocab).commonPrefixSearch s).Pairwise (fun a b => a.2 < b.2) := by
  have hm := wf_from vocab
  constructor
  · intro id len
    have := mem_cps hm (input := s) (p := 0) (c := (id, len))
    rw [List.drop_zero] at this
    rw [this]
    simp only [Nat.zero_add]
    constructor
    · intro h
      have h1 := edge_lt h
      have h2 := (hm.ids _ _).1 (edge_tok h)
      exact ⟨h1.1, h1.2, by simpa using h2⟩
    · rintro ⟨h1, h2, h3⟩
      unfold edge
      rw [if_pos ⟨h1, h2⟩]
      exact (hm.ids _ _).2 (by simpa using h3)
  · have := cps_eq hm s 0
    rw [List.drop_zero] at this
    rw [this]
    rw [List.pairwise_filterMap]
    refine List.Pairwise.imp ?_ List.pairwise_lt_range
    intro a b hab x hx y hy
    simp only [Option.map_eq_some_iff] at hx hy
    obtain ⟨_, _, rfl⟩ := hx
    obtain ⟨_, _, rfl⟩ := hy
    simp only; omega

example : (from_ exVocab).commonPrefixSearch [97, 98, 98] = [(3, 1), (2, 2)] := by decide

/-- **C09** A model grown by any history of `add_tokens` calls answers every query like a model built at once. -/
theorem C09_growth_eq_rebuild [ScoreOps F] (vocab : List (ScoredToken F)) (history : List (List (ScoredToken F))) :
    let grown := history.foldl Model.addTokens (from_ vocab)
    let rebuilt := from_ (vocab ++ history.flatten)
    (∀ s d rnd, grown.encode s d rnd = rebuilt.encode s d rnd) ∧
    (∀ ids, grown.decode ids = rebuilt.decode ids) ∧
    (∀ v, grown.tokenToId v = rebuilt.tokenToId v) ∧
    (∀ i, grown.idToToken i = rebuilt.idToToken i) ∧
    grown.vocabSize = rebuilt.vocabSize ∧ grown.vocab = vocab ++ history.flatten ∧
    (∀ s, grown.commonPrefixSearch s = rebuilt.commonPrefixSearch s) := by
  have : ∀ (history : List (List (ScoredToken F))) (v : List (ScoredToken F)),
      history.foldl Model.addTokens (from_ v) = from_ (v ++ history.flatten) := by
    intro history
    induction history with
    | nil => intro v; simp
    | cons ts hs ih => intro v; rw [List.foldl_cons, ← from_append, ih]; simp
  simp only [this history vocab, from_vocab, implies_true, and_self]

example : (([[⟨[98], 1, true⟩], [⟨[97, 98], 2, true⟩, ⟨[97], 9, true⟩]].foldl Model.addTokens
    (from_ [⟨[97], (1 : Int), true⟩]))).encode ['a', 'b'] 0 exRnd = .ok [3, 1] := by decide

/-- **C10** `id_to_token` is the vocabulary; `token_to_id` gives the largest index holding the bytes; without
duplicates they are mutually inverse. -/
theorem C10_lookups (vocab : List (ScoredToken F)) :
    (from_ vocab).vocabSize = vocab.length ∧
    (∀ i, (from_ vocab).idToToken i = vocab[i]?) ∧
    (∀ i, ((from_ vocab).idToToken i).isSome ↔ i < vocab.length) ∧
    (∀ v i, (from_ vocab).tokenToId v = some i ↔ LastIndex vocab v i) ∧
    (∀ v, (from_ vocab).tokenToId v = none ↔ ∀ t ∈ vocab, t.value ≠ v) ∧
    (NoDuplicates vocab → ∀ v i, (from_ vocab).tokenToId v = some i ↔
      ∃ t, (from_ vocab).idToToken i = some t ∧ t.value = v) := by
  have hm := wf_from vocab
  have hid : ∀ i, (from_ vocab).idToToken i = vocab[i]? := by
    intro i
    show (if i ≥ vocab.length then none else vocab[i]?) = vocab[i]?
    by_cases h : i ≥ vocab.length
    · rw [if_pos h, List.getElem?_eq_none h]
    · rw [if_neg h]
  refine ⟨rfl, hid, ?_, hm.ids, ?_, ?_⟩
  · intro i; rw [hid]; simp
  · intro v
    have := hm.isSome_iff v
    simp only [from_vocab] at this
    show (from_ vocab).tokenToIds v = none ↔ _
    constructor
    · intro h t ht e
      obtain ⟨i, hi⟩ := this.2 ⟨t, ht, e⟩
      rw [h] at hi; simp at hi
    · intro h
      cases hv : (from_ vocab).tokenToIds v with
      | none => rfl
      | some i =>
        obtain ⟨t, ht, e⟩ := this.1 ⟨i, hv⟩
        exact absurd e (h t ht)
  · intro hnd v i
    rw [hid]
    show (from_ vocab).tokenToIds v = some i ↔ _
    rw [hm.ids]
    constructor
    · exact fun h => h.1
    · rintro ⟨t, ht, rfl⟩; exact lastIndex_of_nodup hnd ht

example : NoDuplicates ([⟨[97], 1, true⟩, ⟨[97, 98], 2, true⟩] : List (ScoredToken Int)) := by
  unfold NoDuplicates; decide

/-- **C11** `decode` returns `TokenIdOutOfBounds` of the first unknown id, if any, and otherwise the lossy decoding of
the concatenated token bytes. -/
theorem C11_decode (vocab : List (ScoredToken F)) :
    (∀ pre id post, (∀ i ∈ pre, i < vocab.length) → vocab.length ≤ id →
      (from_ vocab).decode (pre ++ id :: post) = .error (.outOfBounds id)) ∧
    (∀ ids bs, Spells vocab ids bs → (from_ vocab).decode ids = .ok (lossy bs)) ∧
    (∀ ids, (∀ i ∈ ids, i < vocab.length) → ∃ bs, Spells vocab ids bs) := by
  refine ⟨?_, fun ids bs h => decode_spells vocab ids bs h, ?_⟩
  · intro pre id post hpre hid
    have key : ∀ (pre : List Nat) (acc : List UInt8), (∀ i ∈ pre, i < vocab.length) →
        decodeLoop (from_ vocab) (pre ++ id :: post) acc = .error (.outOfBounds id) := by
      intro pre
      induction pre with
      | nil =>
        intro acc _
        simp only [List.nil_append]
        unfold decodeLoop
        rw [if_pos (by simpa [vocabSize] using hid)]
      | cons i pre ih =>
        intro acc h
        have hi := h i (by simp)
        simp only [List.cons_append]
        unfold decodeLoop
        rw [if_neg (by simp [vocabSize]; omega), idx_of_lt (show i < (from_ vocab).vocab.length from hi)]
        simp only [res_bind_ok]
        exact ih _ (fun j hj => h j (by simp [hj]))
    unfold decode
    rw [key pre [] hpre]; rfl
  · intro ids
    induction ids with
    | nil => intro _; exact ⟨[], [], rfl, rfl⟩
    | cons i ids ih =>
      intro h
      obtain ⟨bs, toks, h1, h2⟩ := ih (fun j hj => h j (by simp [hj]))
      have hi := h i (by simp)
      exact ⟨_, vocab[i] :: toks, by simp [hi, h1], rfl⟩

example : (from_ exVocab).decode [0, 5, 9, 12] = .error (.outOfBounds 9) := by decide
example : (from_ exVocab).decode [0, 5, 0] = .ok ['a', Char.ofNat 0xFFFD, 'a'] := by decide

end Tokengeex

import Verif.Props.Locality
import Verif.Props.Tokenizer
/-
C108: how many ids a text has.
-/
namespace Tokengeex
open Spec ScoreOps Tokenizer
variable {F : Type} [ScoreOps F]

omit [ScoreOps F] in
theorem spells_length {vocab : List (ScoredToken F)} {L : Nat} (hL : ∀ t ∈ vocab, t.value.length ≤ L) {ids : List Nat} :
    ∀ {bs : List UInt8}, Spells vocab ids bs → bs.length ≤ ids.length * L := by
  induction ids with
  | nil => intro bs h; rw [spells_nil.1 h]; simp
  | cons i ids ih =>
    intro bs h
    obtain ⟨t, rest, h1, h2, rfl⟩ := spells_cons.1 h
    have := ih h2
    have := hL t (List.mem_of_getElem? h1)
    rw [List.length_append, List.length_cons, Nat.add_mul, Nat.one_mul]
    omega

omit [ScoreOps F] in
theorem length_spells {vocab : List (ScoredToken F)} {ids : List Nat} : ∀ {bs : List UInt8}, Spells vocab ids bs →
    Canonical vocab ids → ids.length ≤ bs.length := by
  induction ids with
  | nil => intro bs _ _; simp
  | cons i ids ih =>
    intro bs h hc
    obtain ⟨t, rest, h1, h2, rfl⟩ := spells_cons.1 h
    have := ih h2 fun j hj => hc j (by simp [hj])
    obtain ⟨x, hx, ⟨t', h5, h6⟩, _⟩ := hc i (by simp)
    rw [h1] at h5
    cases h5
    have : 0 < t.value.length := List.length_pos_iff.2 (h6 ▸ hx)
    rw [List.length_append, List.length_cons]
    omega

/-- **C108** (model) An encoding has at most as many ids as the text has bytes, and at least as many as are needed if every token is
as long as the longest. -/
theorem C108_model (vocab : List (ScoredToken F)) (L : Nat) (hL : ∀ t ∈ vocab, t.value.length ≤ L) (s : Str) (dropout : F)
    (rnd : Nat → F) (ids : List Nat) (h : (Model.from_ vocab).encode s dropout rnd = .ok ids) :
    ids.length ≤ (enc s).length ∧ (enc s).length ≤ ids.length * L := by
  have hs := (C01_encode_lossless vocab s dropout rnd ids h).2
  refine ⟨length_spells hs ?_, spells_length hL hs⟩
  intro i hi
  obtain ⟨v, h1, h2, _⟩ := C07_encode_canonical vocab s dropout rnd ids h i hi
  exact ⟨v, h1, h2⟩

/-- **C108** (full dropout) If no draw exceeds the dropout, there are as many ids as bytes. -/
theorem C108_full_dropout (vocab : List (ScoredToken F)) (s : Str) (dropout : F) (rnd : Nat → F)
    (hd : le dropout zero = false) (hr : ∀ k, lt dropout (rnd k) = false) (ids : List Nat)
    (h : (Model.from_ vocab).encode s dropout rnd = .ok ids) : ids.length = (enc s).length := by
  have h1 := C06_full_dropout vocab s dropout rnd hd hr ids h
  have hs := (C01_encode_lossless vocab s dropout rnd ids h).2
  generalize enc s = bs at hs
  clear h
  induction ids generalizing bs with
  | nil => rw [spells_nil.1 hs]; rfl
  | cons i ids ih =>
    obtain ⟨t, rest, h2, h3, rfl⟩ := spells_cons.1 hs
    obtain ⟨t', b, h4, h5⟩ := h1 i (by simp)
    rw [h2] at h4
    cases h4
    rw [h5, List.length_cons, ih (fun j hj => h1 j (by simp [hj])) rest h3]
    rfl

theorem zip_lengths {α : Type} (f : α → List UInt8) (L : Nat) : ∀ (xs : List α) (parts : List (List Nat)), parts.length = xs.length →
    (∀ pr ∈ xs.zip parts, pr.2.length ≤ (f pr.1).length ∧ (f pr.1).length ≤ pr.2.length * L) →
    parts.flatten.length ≤ (xs.flatMap f).length ∧ (xs.flatMap f).length ≤ parts.flatten.length * L
  | [], parts, hl, _ => by
    have : parts = [] := List.length_eq_zero_iff.1 hl
    subst this; simp
  | x :: xs, [], hl, _ => by simp at hl
  | x :: xs, p :: parts, hl, h => by
    obtain ⟨h1, h2⟩ := zip_lengths f L xs parts (by simpa using hl) fun pr hp => h pr (by
      rw [List.zip_cons_cons]; exact List.mem_cons_of_mem _ hp)
    obtain ⟨h3, h4⟩ := h (x, p) (by rw [List.zip_cons_cons]; exact List.mem_cons_self)
    simp only at h3 h4
    rw [List.flatten_cons, List.flatMap_cons, List.length_append, List.length_append, Nat.add_mul]
    omega

omit [ScoreOps F] in
theorem enc_flatMap {α : Type} (f : α → Str) (l : List α) : enc (l.flatMap f) = l.flatMap fun x => enc (f x) := by
  induction l with
  | nil => rfl
  | cons x l ih => rw [List.flatMap_cons, List.flatMap_cons, enc_append, ih]

theorem enc_pos {s : Str} (h : s ≠ []) : 0 < (enc s).length := by
  cases s with
  | nil => exact absurd rfl h
  | cons c s =>
    rw [show c :: s = [c] ++ s from rfl, enc_append, List.length_append]
    have := utf8EncodeChar_length_pos c
    have e : enc [c] = String.utf8EncodeChar c := by simp [enc]
    rw [e]; omega

/-- **C108** (tokenizer) The same for `encode` with special tokens, which count as tokens, for the text as processed. -/
theorem C108_tokenizer (norm : UnicodeForm → Str → Str) (vocab : List (ScoredToken F)) (ps : List Processor)
    (specials : List Str) (ops : List (Op F)) (L : Nat) (s : Str) (dropout : F) (rnd : Nat → F) (ids : List Nat) :
    let t := build vocab ps specials ops
    (∀ id v, t.idToToken id = some v → v.length ≤ L) → t.encode norm s dropout rnd = .ok ids →
    ∀ text, t.decode ids true = .ok text → ids.length ≤ (enc text).length ∧ (enc text).length ≤ ids.length * L := by
  intro t hL he text hd
  obtain ⟨pieces, h1, h2⟩ := C18_round_trip norm vocab ps specials ops s dropout rnd ids he
  obtain ⟨pieces', parts, h3, h4, h5, h6⟩ := (C22_special_ids norm vocab ps specials ops s dropout rnd ids).2 he
  have := isSplit_unique h1 h3
  subst this
  have e : text = _ := Except.ok.inj (hd.symm.trans h2)
  rw [e, h4, enc_flatMap]
  refine zip_lengths _ L pieces parts h5 ?_
  intro pr hpr
  obtain ⟨h7, h8⟩ := h6 pr hpr
  have hne := h3.nonempty pr.1 (List.of_mem_zip hpr).1
  have hm : t.model = Model.from_ t.model.vocab := (wf_build vocab ps specials ops).model
  cases hb : pr.1.2 with
  | true =>
    obtain ⟨id, h9, h10, h11⟩ := h7 hb
    rw [h9, if_pos rfl]
    have hid : t.idToToken id = some (enc pr.1.1) := by
      unfold idToToken
      rw [show t.idToSpecialToken id = some pr.1.1 from h11]
      rfl
    have := hL id _ hid
    have := enc_pos hne
    simp only [List.length_cons, List.length_nil, Nat.zero_add, Nat.one_mul]
    omega
  | false =>
    obtain ⟨h9, rnd', h10⟩ := h8 hb
    rw [if_neg (by simp)]
    unfold encodeOrdinary at h10
    rw [show (build vocab ps specials ops).model = _ from hm] at h10
    have hp : (build vocab ps specials ops).preprocess norm pr.1.1 = ps.foldl (fun s p => p.preprocess norm s) pr.1.1 := by
      unfold preprocess
      rw [(build_spec vocab ps specials ops).2.1]
    rw [hp] at h10
    refine C108_model t.model.vocab L ?_ _ dropout rnd' pr.2 h10
    intro tok htok
    obtain ⟨i, hi⟩ := List.getElem?_of_mem htok
    refine hL i tok.value ?_
    unfold idToToken idToSpecialToken
    rw [if_pos (by exact (List.getElem?_eq_some_iff.1 hi).1)]
    simp only [Option.map_none, idToBaseToken, Model.idToToken]
    rw [if_neg (by have := (List.getElem?_eq_some_iff.1 hi).1; omega), show t.model.vocab[i]? = some tok from hi]
    rfl

/-- Non-vacuity: a text with a special token, whose tokens have at most three bytes. -/
example : exTok.encode exNorm "aab<e>".toList 0 exRnd = .ok [6, 1, 4] ∧ exTok.decode [6, 1, 4] true = .ok "aab<e>".toList ∧
    (enc "aab<e>".toList).length ≤ 3 * 3 := by decide
example : (Model.from_ exVocab).encode ['a', 'b', 'a'] 5 exRnd = .ok [3, 1, 3] ∧ (enc ['a', 'b', 'a']).length = 3 := by decide

end Tokengeex

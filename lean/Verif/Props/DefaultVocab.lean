import Verif.Props.Model
import Verif.Props.Filter
/-
C90: the default vocabulary, one token for each byte.
-/
namespace Tokengeex
open Spec ScoreOps Model

variable {F : Type} [ScoreOps F]

omit [ScoreOps F] in
theorem default_getElem (x : F) (i : Nat) :
    (newDefaultVocab x)[i]? = if i < 256 then some ⟨[UInt8.ofNat i], x, false⟩ else none := by
  unfold newDefaultVocab
  rw [List.getElem?_map]
  by_cases h : i < 256
  · rw [if_pos h, List.getElem?_range h]; rfl
  · rw [if_neg h, List.getElem?_eq_none (by simp; omega)]; rfl

/-- **C90** With the default vocabulary, whatever its score, the ids of a text are its UTF-8 bytes, with or without dropout
and whatever the random numbers. -/
theorem C90_bytes (x : F) (s : Str) (dropout : F) (rnd : Nat → F) :
    (from_ (newDefaultVocab x)).encode s dropout rnd = .ok ((enc s).map UInt8.toNat) := by
  obtain ⟨ids, h⟩ := C04_dropout_total (newDefaultVocab x) s dropout rnd (by
    intro b _
    refine ⟨⟨[b], x, false⟩, ?_, rfl⟩
    unfold newDefaultVocab
    refine List.mem_map.2 ⟨b.toNat, List.mem_range.2 (UInt8.toNat_lt b), ?_⟩
    rw [UInt8.ofNat_toNat])
  rw [h]
  obtain ⟨hlt, toks, h1, h2⟩ := C01_encode_lossless _ s dropout rnd ids h
  refine congrArg Except.ok ?_
  rw [← h2]
  clear h h2 hlt
  induction ids generalizing toks with
  | nil =>
    have : toks = [] := by simpa using h1.symm
    subst this; rfl
  | cons i ids ih =>
    cases toks with
    | nil => simp at h1
    | cons t toks =>
      simp only [List.map_cons, List.cons.injEq] at h1
      obtain ⟨h3, h4⟩ := h1
      rw [default_getElem] at h3
      by_cases hi : i < 256
      · rw [if_pos hi] at h3
        have ht := (Option.some.inj h3).symm
        subst ht
        have := ih toks h4
        rw [List.map_cons, List.flatten_cons, List.map_append, ← this]
        simp [Nat.mod_eq_of_lt hi]
      · rw [if_neg hi] at h3; simp at h3

/-- **C90** None of its tokens is protected: filtering it to a size leaves exactly that size. -/
theorem C90_filter (good : F → Prop) (laws : OrderLaws F good) (f : VocabularyFilter F) (ninf x : F)
    (s : Sorter (ScoredToken F)) (hs : SortLaws s) (hx : good x) (hlt : lt (f.minScore.getD ninf) x = false) :
    ∃ kept, f.filter ninf s (from_ (newDefaultVocab x)) = .ok (from_ kept) ∧ kept.length = min 256 f.vocabSize := by
  classical
  have hlen : (newDefaultVocab x).length = 256 := by simp [newDefaultVocab]
  have hall : ∀ t ∈ newDefaultVocab x, t.score = x ∧ t.keep = false := by
    intro t ht
    obtain ⟨i, _, rfl⟩ := List.mem_map.1 ht
    exact ⟨rfl, rfl⟩
  have hgood : ∀ t ∈ newDefaultVocab x, good t.score := fun t ht => by rw [(hall t ht).1]; exact hx
  by_cases hsz : f.vocabSize < 256
  · obtain ⟨kept, removed, h1, h2, _, h4, _⟩ := C39_filter good laws f ninf s hs _ hgood (by rw [hlen]; exact hsz)
    refine ⟨kept, h1, ?_⟩
    rw [List.countP_eq_length.2 (by
      intro t ht
      obtain ⟨e1, e2⟩ := hall t ht
      refine decide_eq_true ⟨fun h => ?_, ?_⟩
      · rw [e2] at h; simp at h
      · rw [e1]; exact hlt), hlen] at h4
    have := h2.length_eq
    rw [List.length_append, hlen] at this
    omega
  · refine ⟨_, (C38_filter good laws f ninf s hs _ hgood).1 (by omega), ?_⟩
    omega

/-- Its tokens are the 256 bytes; the test of the repository, with another text. -/
example : (from_ (newDefaultVocab (1 : Int))).encode ['a', 'é'] 0 (fun _ => 0) = .ok [97, 195, 169] := by decide +kernel

end Tokengeex

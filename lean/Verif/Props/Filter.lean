import Verif.Proofs.Filter
/-
Properties of vocabulary filtering (C38, C39).
-/
namespace Tokengeex
open Spec ScoreOps

variable {F : Type} [ScoreOps F]

/-- **C38** Filtering a model whose scores are comparable (no NaN) never panics.  A vocabulary that is small enough is
returned unchanged.  Otherwise the result is the model of a vocabulary `kept` such that the old vocabulary is `kept` plus
the `removed` tokens, in some order, so no token is invented or altered; at least `vocab_size` tokens are left; a `keep`
token is removed only if `force` is set; and no token scoring above `min_score` (or above `-inf` if there is none) is
removed. -/
theorem C38_filter (good : F → Prop) (laws : OrderLaws F good) (f : VocabularyFilter F) (ninf : F)
    (s : Sorter (ScoredToken F)) (hs : SortLaws s) (vocab : List (ScoredToken F)) (hgood : ∀ t ∈ vocab, good t.score) :
    (vocab.length ≤ f.vocabSize → f.filter ninf s (Model.from_ vocab) = .ok (Model.from_ vocab)) ∧
    (f.vocabSize < vocab.length → ∃ kept removed, f.filter ninf s (Model.from_ vocab) = .ok (Model.from_ kept) ∧
      vocab.Perm (kept ++ removed) ∧ f.vocabSize ≤ kept.length ∧
      (∀ t ∈ removed, t.keep = true → f.force = true) ∧
      (∀ t ∈ removed, lt (f.minScore.getD ninf) t.score = false)) := by
  classical
  obtain ⟨h1, h2⟩ := filter_spec good laws f ninf s hs vocab hgood
  refine ⟨h1, fun h => ?_⟩
  obtain ⟨kept, removed, e, hp, hr, hl, _⟩ := h2 h
  exact ⟨kept, removed, e, hp, hl, fun t ht => (hr t ht).1, fun t ht => (hr t ht).2⟩

open Classical in
/-- **C39** If the vocabulary is too large, exactly as many tokens are removed as the size asks for, or all removable ones
if there are fewer; no removable token that is kept scores less than a removed one; and the resulting vocabulary is in
non-increasing order of scores. -/
theorem C39_filter (good : F → Prop) (laws : OrderLaws F good) (f : VocabularyFilter F) (ninf : F)
    (s : Sorter (ScoredToken F)) (hs : SortLaws s) (vocab : List (ScoredToken F)) (hgood : ∀ t ∈ vocab, good t.score)
    (hlarge : f.vocabSize < vocab.length) :
    ∃ kept removed, f.filter ninf s (Model.from_ vocab) = .ok (Model.from_ kept) ∧ vocab.Perm (kept ++ removed) ∧
      (∀ t ∈ removed, Removable f ninf t) ∧
      removed.length = min (vocab.length - f.vocabSize) (vocab.countP (fun t => decide (Removable f ninf t))) ∧
      (∀ r ∈ removed, ∀ t ∈ kept, Removable f ninf t → lt t.score r.score = false) ∧ ScoreSorted kept := by
  obtain ⟨_, h2⟩ := filter_spec good laws f ninf s hs vocab hgood
  obtain ⟨kept, removed, e, hp, hr, _, hlen, hw, hso⟩ := h2 hlarge
  exact ⟨kept, removed, e, hp, hr, hlen, hw, hso⟩

/-- **C39** Without a threshold (`min_score` absent, so the threshold is `-inf`) filtering removes nothing but tokens
whose score is not above `-inf`, whatever the requested size. -/
theorem C39_no_threshold (good : F → Prop) (laws : OrderLaws F good) (f : VocabularyFilter F) (ninf : F)
    (hf : f.minScore = none) (s : Sorter (ScoredToken F)) (hs : SortLaws s) (vocab : List (ScoredToken F))
    (hgood : ∀ t ∈ vocab, good t.score) (hfin : ∀ t ∈ vocab, lt ninf t.score = true) :
    ∃ kept, f.filter ninf s (Model.from_ vocab) = .ok (Model.from_ kept) ∧ kept.Perm vocab := by
  obtain ⟨h1, h2⟩ := filter_spec good laws f ninf s hs vocab hgood
  by_cases h : vocab.length ≤ f.vocabSize
  · exact ⟨vocab, h1 h, .refl _⟩
  · obtain ⟨kept, removed, e, hp, hr, _⟩ := h2 (by omega)
    refine ⟨kept, e, ?_⟩
    have : removed = [] := by
      cases removed with
      | nil => rfl
      | cons t l =>
        exfalso
        have h3 := (hr t (by simp)).2
        have h4 := hfin t (hp.symm.subset (by simp))
        rw [hf] at h3
        simp only [Option.getD_none] at h3
        rw [h4] at h3; simp at h3
    subst this
    simpa using hp.symm

/-! ### Non-vacuity -/

/-- The hypotheses of C38 and C39 are met by this vocabulary and sorting function. -/
example : ∃ kept removed, ({ vocabSize := 2, minScore := some (-4), force := false } : VocabularyFilter Int).filter
    (-1000000) (insertSorter _) (Model.from_ [⟨[1], -9, true⟩, ⟨[2], -5, false⟩, ⟨[3], -3, false⟩, ⟨[4], -7, false⟩]) =
      .ok (Model.from_ kept) ∧ [⟨[1], -9, true⟩, ⟨[2], -5, false⟩, ⟨[3], -3, false⟩, ⟨[4], -7, false⟩].Perm (kept ++ removed) ∧
      ScoreSorted kept := by
  obtain ⟨kept, removed, h1, h2, _, _, _, h3⟩ := C39_filter (fun _ => True) int_order
    { vocabSize := 2, minScore := some (-4), force := false } (-1000000) (insertSorter _) (insertSorter_laws _)
    [⟨[1], -9, true⟩, ⟨[2], -5, false⟩, ⟨[3], -3, false⟩, ⟨[4], -7, false⟩] (by simp) (by decide)
  exact ⟨kept, removed, h1, h2, h3⟩

/-- Two of four tokens may go; the protected one stays although it scores least. -/
example : (({ vocabSize := 2, minScore := some (-4), force := false } : VocabularyFilter Int).filter (-1000000)
    (insertSorter _) (Model.from_ [⟨[1], -9, true⟩, ⟨[2], -5, false⟩, ⟨[3], -3, false⟩, ⟨[4], -7, false⟩])).map (·.vocab) =
    .ok [⟨[3], -3, false⟩, ⟨[1], -9, true⟩] := by decide
/-- The threshold stops the removal although the size is not reached. -/
example : (({ vocabSize := 1, minScore := some (-6), force := false } : VocabularyFilter Int).filter (-1000000)
    (insertSorter _) (Model.from_ [⟨[1], -9, true⟩, ⟨[2], -5, false⟩, ⟨[3], -3, false⟩, ⟨[4], -7, false⟩])).map (·.vocab) =
    .ok [⟨[3], -3, false⟩, ⟨[2], -5, false⟩, ⟨[1], -9, true⟩] := by decide

end Tokengeex

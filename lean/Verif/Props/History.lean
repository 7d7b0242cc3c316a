import Verif.Spec.History
import Verif.Props.Merge
import Verif.Props.Generate
/-
C40, C58: what survives every history of training steps.
-/
namespace Tokengeex
open Spec ScoreOps RealOps Relation

variable {F : Type} [TrainOps F]

/-- An unforced filter keeps every protected token. -/
theorem filter_keeps {f : VocabularyFilter F} {ninf : F} {sorter : Sorter (ScoredToken F)} (hforce : f.force = false)
    (hs : SortLaws sorter) {vocab : List (ScoredToken F)} {m' : Model F}
    (h : f.filter ninf sorter (Model.from_ vocab) = .ok m') :
    ∃ w, m' = Model.from_ w ∧ (∀ t ∈ vocab, t.keep = true → t ∈ w) ∧ ∀ t ∈ w, t ∈ vocab := by
  have hloop : ∀ (l : List (ScoredToken F)) (n k : Nat), (∀ t ∈ l, t.keep = true → t ∈ f.filterLoop ninf n k l) ∧
      ∀ t ∈ f.filterLoop ninf n k l, t ∈ l := by
    intro l
    induction l with
    | nil => intro n k; simp [VocabularyFilter.filterLoop]
    | cons a l ih =>
      intro n k
      rw [VocabularyFilter.filterLoop]
      by_cases hc : (decide (k ≥ n) || (a.keep && !f.force) || lt (f.minScore.getD ninf) a.score) = true
      · rw [if_pos hc]
        refine ⟨fun t ht hk => ?_, fun t ht => ?_⟩
        · rcases List.mem_cons.1 ht with rfl | ht
          · exact List.mem_cons_self ..
          · exact List.mem_cons_of_mem _ ((ih n k).1 t ht hk)
        · rcases List.mem_cons.1 ht with rfl | ht
          · exact List.mem_cons_self ..
          · exact List.mem_cons_of_mem _ ((ih n k).2 t ht)
      · rw [if_neg hc]
        refine ⟨fun t ht hk => ?_, fun t ht => List.mem_cons_of_mem _ ((ih n (k + 1)).2 t ht)⟩
        rcases List.mem_cons.1 ht with rfl | ht
        · exact absurd (by simp [hk, hforce]) hc
        · exact (ih n (k + 1)).1 t ht hk
  unfold VocabularyFilter.filter at h
  by_cases hsz : (Model.from_ vocab).vocabSize ≤ f.vocabSize
  · rw [if_pos hsz] at h
    exact ⟨vocab, (Except.ok.inj h).symm, fun t ht _ => ht, fun t ht => ht⟩
  · rw [if_neg hsz] at h
    obtain ⟨v, h1, h2⟩ := bind_ok h
    obtain ⟨w, h3, h4⟩ := bind_ok h2
    rw [Model.from_vocab] at h1
    have p1 := sortUnwrap_perm hs h1
    have p2 := sortUnwrap_perm hs h3
    refine ⟨w, (Except.ok.inj h4).symm, fun t ht hk => ?_, fun t ht => ?_⟩
    · exact p2.symm.subset ((hloop v _ 0).1 t (p1.symm.subset ht) hk)
    · exact p1.subset ((hloop v _ 0).2 t (p2.subset ht))

/-- A step keeps every protected token, up to its score. -/
theorem trainStep_keeps [Mul F] {vocab : List (ScoredToken F)} {m' : Model F} (h : TrainStep (Model.from_ vocab) m') :
    ∃ w, m' = Model.from_ w ∧ ∀ t ∈ vocab, t.keep = true → ∃ u ∈ w, u.value = t.value ∧ u.keep = true := by
  cases h with
  | filter f ninf sorter h1 h2 h3 =>
    obtain ⟨w, e, hw, _⟩ := filter_keeps h1 h2 h3
    exact ⟨w, e, fun t ht hk => ⟨t, hw t ht hk, rfl, hk⟩⟩
  | prune c std samples h1 h2 h3 =>
    rw [Model.vocabSize, Model.from_vocab] at h2
    obtain ⟨w, e, hw⟩ := C48_run c std h1 samples vocab h2 m' h3.1
    exact ⟨w, e, fun t ht hk => prunedTo_keep hw ht hk⟩
  | merge c rnd sorter samples listing fuel h1 h2 h3 =>
    obtain ⟨added, e, _⟩ := C41_merge c rnd sorter h1 samples listing h2 vocab fuel m' h3
    exact ⟨_, e, fun t ht hk => ⟨t, List.mem_append.2 (Or.inl ht), rfl, hk⟩⟩

/-- **C40** If every byte of a text is a protected one-byte token, the model still encodes the text, with any dropout and
any random numbers, after any sequence of unforced filter, prune and merge steps; and decoding gives the text back. -/
theorem C40_history [Mul F] (vocab : List (ScoredToken F)) (s : Str) (hkeep : BytesKept vocab (enc s)) (m' : Model F)
    (h : ReflTransGen TrainStep (Model.from_ vocab) m') (dropout : F) (rnd : Nat → F) :
    ∃ ids, m'.encode s dropout rnd = .ok ids ∧ m'.decode ids = .ok s := by
  have : ∃ w, m' = Model.from_ w ∧ BytesKept w (enc s) := by
    induction h with
    | refl => exact ⟨vocab, rfl, hkeep⟩
    | tail _ h2 ih =>
      obtain ⟨v, rfl, hv⟩ := ih
      obtain ⟨w, e, hw⟩ := trainStep_keeps h2
      refine ⟨w, e, fun b hb => ?_⟩
      obtain ⟨t, ht, e1, e2⟩ := hv b hb
      obtain ⟨u, hu, e3, e4⟩ := hw t ht e2
      exact ⟨u, hu, e3.trans e1, e4⟩
  obtain ⟨w, rfl, hw⟩ := this
  obtain ⟨ids, hids⟩ := C04_dropout_total w s dropout rnd (fun b hb => by
    obtain ⟨t, ht, e, _⟩ := hw b hb
    exact ⟨t, ht, e⟩)
  exact ⟨ids, hids, C02_decode_encode w s dropout rnd ids hids⟩

/-- No string has the byte 255 in it. -/
theorem enc_ne_255 (s : Str) : ∀ b ∈ enc s, b ≠ 255 := by
  intro b hb
  unfold enc at hb
  obtain ⟨c, _, hc⟩ := List.mem_flatMap.1 hb
  intro e
  subst e
  unfold String.utf8EncodeChar at hc
  dsimp only at hc
  have hv : c.val.toNat < 1114112 := by
    have := c.valid
    rcases this with h | h
    · have : c.val.toNat < 55296 := h
      omega
    · have : c.val.toNat < 1114112 := h.2
      omega
  have hbyte : ∀ n : Nat, n < 255 → (255 : UInt8) ≠ n.toUInt8 := by
    intro n hn e
    have := congrArg UInt8.toNat e
    simp only [Nat.toUInt8, UInt8.toNat_ofNat'] at this
    have h255 : (255 : UInt8).toNat = 255 := rfl
    omega
  split at hc
  · simp only [List.mem_singleton] at hc
    exact hbyte _ (by omega) hc
  · split at hc
    · simp only [List.mem_cons, List.not_mem_nil, or_false] at hc
      rcases hc with hc | hc
      · revert hc; simp only [imp_false]; exact hbyte _ (by omega)
      · revert hc; simp only [imp_false]; exact hbyte _ (by omega)
    · split at hc
      · simp only [List.mem_cons, List.not_mem_nil, or_false] at hc
        rcases hc with hc | hc | hc
        · revert hc; simp only [imp_false]; exact hbyte _ (by omega)
        · revert hc; simp only [imp_false]; exact hbyte _ (by omega)
        · revert hc; simp only [imp_false]; exact hbyte _ (by omega)
      · simp only [List.mem_cons, List.not_mem_nil, or_false] at hc
        rcases hc with hc | hc | hc | hc
        · revert hc; simp only [imp_false]; exact hbyte _ (by omega)
        · revert hc; simp only [imp_false]; exact hbyte _ (by omega)
        · revert hc; simp only [imp_false]; exact hbyte _ (by omega)
        · revert hc; simp only [imp_false]; exact hbyte _ (by omega)

/-- **C58** Whatever a generator was given, a model made from the vocabulary it generates encodes every string, with any
dropout and any random numbers, and decodes it back, before and after any sequence of unforced filter, prune and merge
steps. -/
theorem C58_generated [Mul F] (max : Nat) (prob : F) (split : Option (Str → List Str)) (allow : Option (Str → Bool))
    (added suggested fed : List Str) (g : Generator F) (h : Fed max prob split allow added suggested fed g)
    (byFreq : Sorter (Str × Nat)) (hf : SortLaws byFreq) (byScore : Sorter (ScoredToken F)) (hs : SortLaws byScore)
    (size : Nat) (vocab : List (ScoredToken F)) (hg : Generator.Generate g byFreq byScore size vocab) (m' : Model F)
    (hm : ReflTransGen TrainStep (Model.from_ vocab) m') (s : Str) (dropout : F) (rnd : Nat → F) :
    ∃ ids, m'.encode s dropout rnd = .ok ids ∧ m'.decode ids = .ok s := by
  have h44 := C44_generate max prob split allow added suggested fed g h byFreq hf byScore hs size vocab hg
  refine C40_history vocab s ?_ m' hm dropout rnd
  intro b hb
  exact h44.2.2.1 b (enc_ne_255 s b hb)

/-! ### Non-vacuity -/

/-- A history: `a`, `b` (protected) and `ab`; a filter to two tokens removes `ab`. -/
example : ∃ m', TrainStep (Model.from_ realVocab) m' ∧ m'.vocabSize = 2 ∧ BytesKept realVocab (enc ['a', 'b']) := by
  have henc : enc ['a', 'b'] = [97, 98] := by decide
  have hkb : BytesKept realVocab (enc ['a', 'b']) := by
    rw [henc]
    intro b hb
    rcases List.mem_cons.1 hb with rfl | hb
    · exact ⟨_, List.mem_cons_self .., rfl, rfl⟩
    · rw [List.mem_singleton] at hb
      subst hb
      exact ⟨_, List.mem_cons_of_mem _ (List.mem_cons_self ..), rfl, rfl⟩
  obtain ⟨kept, removed, h1, h2, _, h4, _⟩ := C39_filter _ real_train_laws.order
    (⟨2, some 0, false⟩ : VocabularyFilter ℝ) (-1000) (insertSorter _) (insertSorter_laws _) realVocab (fun _ _ => rfl)
    (by decide)
  refine ⟨_, .filter _ _ _ rfl (insertSorter_laws _) h1, ?_, hkb⟩
  rw [Model.vocabSize, Model.from_vocab]
  have hl := h2.length_eq
  rw [List.length_append] at hl
  have hc : realVocab.countP (fun t => @decide (Removable (⟨2, some 0, false⟩ : VocabularyFilter ℝ) (-1000) t)
      (Classical.propDecidable _)) = 1 := by
    simp [realVocab, Removable, ScoreOps.lt]
  rw [hc] at h4
  have h3 : realVocab.length = 3 := rfl
  simp only [h3] at h4 hl
  omega

end Tokengeex
